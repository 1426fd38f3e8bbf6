import Verif.Model.MemForget
import Verif.Props.DbSince

/-!
# C68, C96: Gets and Syncs in any order

Histories in which a Sync may come after a Get. A Get may leave a time block in the query cache, and a Sync gives blocks back to the
buffer pool. The messages that were then in memory are called spoilt here; for all others, and for these if a buffer given back does not
read as a record, a Get is right.
-/

namespace Verif

/-- Histories: the messages with their seconds, those put since a Sync left nothing in memory, those in memory when a Sync came after a Get
had looked into memory, and whether no Get has done so since the store was opened or since a new time block was begun with nothing in
memory. -/
inductive Spec.Tale (v : DbEnv) : Db → List (Spec.Message × Int) → List Spec.Message → List Spec.Message → Bool → Prop
  | opened {o r e now s} : (v.mem.cap : Int) ≤ now → r.orderDel [] = [] → openDb v o r e now {} = .ok s → Spec.Tale v s [] [] [] true
  | newId {s ms wait spoilt quiet} (now) : Spec.Tale v s ms wait spoilt quiet → s.seq.toNat < 255 * 524287 →
      Spec.Tale v (s.newId now).1 ms wait spoilt quiet
  | put {s ms wait spoilt quiet} (now o t) : Spec.Tale v s ms wait spoilt quiet → s.seq.toNat < 255 * 524287 → Spec.Fresh v s (ms.map (·.1)) o →
      Spec.PutAt now o t → Spec.Era t → (s.putEntry v now o).2.2 = .ok →
      Spec.Tale v (s.putEntry v now o).1 (ms ++ [(Spec.messageOf v now s o, t)]) (wait ++ [Spec.messageOf v now s o]) spoilt quiet
  | refused {s ms wait spoilt quiet} (now o) (e) : Spec.Tale v s ms wait spoilt quiet → s.seq.toNat < 255 * 524287 →
      (s.putEntry v now o).2.2 = .err e → Spec.Tale v (s.putEntry v now o).1 ms wait spoilt quiet
  | get {s ms wait spoilt quiet} (g q old) : Spec.Tale v s ms wait spoilt quiet →
      Spec.Tale v (s.get v g q old).1 ms wait spoilt (quiet && wait.isEmpty)
  | rotate {s ms wait spoilt quiet} (t) : Spec.Tale v s ms wait spoilt quiet → s.mem.cur ≤ t →
      Spec.Tale v { s with mem := s.mem.rotate t } ms wait spoilt (quiet || (wait.isEmpty && decide (s.mem.cur < t)))
  | write {s ms wait spoilt quiet} (id t) : Spec.Tale v s ms wait spoilt quiet → Spec.Tale v { s with mem := s.mem.write id t false } ms wait spoilt quiet
  | sync {s s' ms wait spoilt quiet r} (e : SyncEnv) : Spec.Tale v s ms wait spoilt quiet → 0 ≤ e.now.toInt → (∀ m ∈ ms, m.2 ≤ e.now.toInt) →
      (∀ m, (e.order m).Perm m) → s.winFile.length + 8192 * s.pending + 8192 ≤ 2 ^ 31 → s.sync e = some (s', r) →
      Spec.Tale v s' ms (if s'.pending = 0 then [] else wait) (if quiet then spoilt else spoilt ++ wait) quiet

theorem openDb_forget {v : DbEnv} {o : OpenOpts} {r : RecEnv} {e : SyncEnv} {now : Int} {s : Db}
    (hr : r.orderDel [] = []) (h : openDb v o r e now {} = .ok s) : s.forget = s := by
  have hi : DBInfo.unmarshal (DBInfo.marshal { signature := dbSignature, version := 1, encryption := 0, sequence := 0, count := 0 }) =
      some { signature := dbSignature, version := 1, encryption := 1, sequence := 0, count := 0 } := by decide +kernel
  have hrec : MemDb.recover v.mem r [] now = some (MemDb.new now, .ok) := by
    simp only [MemDb.recover, MemDb.recLogs, Option.map_some, hr, List.foldl_nil]
    rfl
  have hbi : blockIterator [] = [] := by decide +kernel
  have hle : (Lease.new o.minFree).read [] = some (Lease.new o.minFree) := by
    rfl
  simp only [openDb, if_true, hi, hrec, hbi, loadTopics, hle, ne_eq, not_true_eq_false, if_false, Db.recoverLog, OpenOut.ok.injEq] at h
  subst h
  rfl

theorem Db.putEntry_ok_mem {v : DbEnv} {s s' : Db} {now : Int} {o o' : Obj} (h : s.putEntry v now o = (s', o', .ok)) :
    ∃ k d, k = (Spec.messageOf v now s o).seq ∧ s.mem.put v.mem k d = (s'.mem, .ok) := by
  obtain ⟨_, _, n, hdr, rec, m, t, h1, h2, _, rfl, _⟩ := Db.putEntry_ok h
  obtain ⟨q, id, pre, val, h3, _, _, _, rfl, _⟩ := Db.packEntry_some h1
  obtain ⟨_, h4, h5⟩ := Db.drawId_some h3
  have hid : (s.parseEntry v now o).1.id = o.id := by
    simp only [Db.parseEntry]
    repeat' split
    all_goals rfl
  rw [hid] at h5
  refine ⟨q, rec, ?_, h2⟩
  rcases h5 with ⟨h5, _⟩ | ⟨h5, _, h6, _⟩
  · simp only [Spec.messageOf, Spec.seqOf, h5, h4, Option.getD_some]
  · simp only [Spec.messageOf, Spec.seqOf, h5, h6]

theorem Db.putEntry_err_mem {v : DbEnv} {s s' : Db} {now : Int} {o o' : Obj} {e : DErr}
    (h : s.putEntry v now o = (s', o', .err e)) : s'.mem = s.mem := by
  simp only [Db.putEntry] at h
  split at h
  · simp only [Prod.mk.injEq] at h; obtain ⟨rfl, _⟩ := h; rfl
  · split at h
    · simp only [Prod.mk.injEq] at h; obtain ⟨rfl, _⟩ := h; rfl
    · split at h
      · simp at h
      · next s1 o1 hd rec hs =>
        simp only [Db.setEntry, Option.map_eq_some_iff, Prod.mk.injEq] at hs
        obtain ⟨⟨s2, hd2, rec2⟩, hs, rfl, rfl, rfl, rfl⟩ := hs
        obtain ⟨q, id, pre, val, hdr, hq, hpre, hval, rfl, rfl⟩ := Db.packEntry_some hs
        obtain ⟨⟨n, rfl⟩, _, hx⟩ := Db.drawId_some hdr
        split at h
        · split at h <;> simp at h
        · next m out hne hm =>
          simp only [Prod.mk.injEq, DOut.err.injEq] at h
          obtain ⟨rfl, _⟩ := h
          have := MemDb.put_fail (h := by rw [hm]; exact fun hc => hne hc)
          rw [hm] at this
          exact this

/-- What a Get through the cache leaves. -/
theorem Db.get_shaken (v : DbEnv) (htest : ∀ ks k, k ∈ ks → v.mem.test ks k = true) (g : GetEnv) (s : Db) (q : Query) (old : List UInt64)
    {M : UInt64 → Option Bytes} {gone : UInt64 → Prop} {quiet : Bool} (I : MInv v.mem s.mem.forget M) (H : Shaken s.mem gone quiet) (q' : Bool)
    (hq' : q' = true → quiet = true ∧ ∀ t k, ¬ s.mem.Where t k) : Shaken (s.get v g q old).1.mem gone q' := by
  let P : MemDb → Prop := fun m => s.mem.SameData m ∧ Loose v.mem m M gone ∧ ((∀ t k, ¬ s.mem.Where t k) → m.qblocks = s.mem.qblocks)
  have hstep : ∀ m c, P m → P (s.candStepS v (q.ask v.dur g.now v.q) m c).1 := by
    rintro m c ⟨h1, h2, h3⟩
    have hP : P (m.get v.mem c).1 := by
      refine ⟨h1.trans (MemDb.get_data v.mem m c), (h2.get htest c).1, fun hw => ?_⟩
      rw [MemDb.get_empty, h3 hw]
      cases hf : m.find v.mem c with
      | none => rfl
      | some x =>
        obtain ⟨t, a⟩ := x
        obtain ⟨h4, h5⟩ := m.search_sound v.mem c _ hf
        exact absurd ((h1.where_iff t c).1 ⟨a, h4, h5⟩) (hw t c)
    unfold Db.candStepS
    split
    · exact ⟨h1, h2, h3⟩
    · dsimp only
      split <;> exact hP
  have h0 : P s.mem := ⟨.refl _, H.loose I, fun _ => rfl⟩
  have hend : P (s.get v g q old).1.mem := by
    simp only [Db.get]
    split
    · exact h0
    · split
      · exact h0
      · split
        · exact h0
        · split
          · exact h0
          · dsimp only
            unfold getItemsS
            split
            · exact h0
            · exact getLoopS_keeps (P := P) hstep _ _ _ _ _ _ _ _ h0
  obtain ⟨h1, h2, h3⟩ := hend
  cases q' with
  | false => exact H.same h1 h2
  | true =>
    obtain ⟨rfl, hw⟩ := hq' rfl
    exact H.still h1 (h3 hw)

/-- The history of a database is also that of one whose query cache is emptied all the time; and what the cache may still hold. -/
theorem tale_diary {v : DbEnv} (hs : v.mac.cipher.Sound) (hde : ∀ x, v.decode (v.encode x) = some x)
    (htest : ∀ ks k, k ∈ ks → v.mem.test ks k = true) {s : Db} {ms : List (Spec.Message × Int)} {wait spoilt : List Spec.Message} {quiet : Bool}
    (H : Spec.Tale v s ms wait spoilt quiet) :
    Spec.Diary v s.forget ms true ∧ ∃ gone, Shaken s.mem gone quiet ∧ (∀ k, gone k → ∃ m ∈ spoilt, m.seq = k) ∧
      (∀ t k, s.mem.Where t k → ∃ m ∈ wait, m.seq = k) ∧ (∀ m ∈ spoilt, m ∈ ms.map (·.1)) ∧ (∀ m ∈ wait, m ∈ ms.map (·.1)) := by
  induction H with
  | opened hc hr h =>
    obtain ⟨I, hq, _⟩ := DbInv.init hc hr h
    refine ⟨?_, fun _ => False, .start hq, fun _ h => h.elim, ?_, by simp, by simp⟩
    · rw [openDb_forget hr h]; exact .opened hc hr h
    · intro t k hw
      have := (I.mem.where_iff k).1 ⟨t, hw⟩
      simp [memMap] at this
  | newId now _ hq ih =>
    obtain ⟨hd, gone, h1, h2, h3, h4, h5⟩ := ih
    exact ⟨hd.newId now hq, gone, h1, h2, h3, h4, h5⟩
  | @put s ms wait spoilt quiet now o t _ hq hf hat hera hok ih =>
    obtain ⟨hd, gone, h1, h2, h3, h4, h5⟩ := ih
    have hok' : (s.forget.putEntry v now o).2.2 = .ok := by rw [Db.putEntry_forget]; exact hok
    have hf' : Spec.Fresh v s.forget (ms.map (·.1)) o := ⟨hf.sane, hf.parsed, hf.topicSize, hf.plain, hf.levels, hf.id⟩
    have hd' := hd.put now o t hq hf' hat hera hok'
    rw [Db.putEntry_forget] at hd'
    obtain ⟨U, D, L, led, I, hp, _⟩ := diary_inv hs hde htest hd
    obtain ⟨U', D', L', led', I', hp', _⟩ := diary_inv hs hde htest hd'
    obtain ⟨k, d, hk, hmem⟩ : ∃ k d, k = (Spec.messageOf v now s o).seq ∧ s.mem.put v.mem k d = ((s.putEntry v now o).1.mem, .ok) := by
      exact Db.putEntry_ok_mem (o' := (s.putEntry v now o).2.1) (by rw [← hok])
    have hnew : ¬ gone k := by
      intro hg
      obtain ⟨m, hm, e⟩ := h2 k hg
      obtain ⟨x, hx, rfl⟩ := List.mem_map.1 (h4 m hm)
      have hnd : ((ms ++ [(Spec.messageOf v now s o, t)]).map fun x => x.1.seq).Nodup := by
        refine ((hp'.map fun x => x.1.seq).nodup_iff).1 ?_
        rw [List.map_map]
        exact I'.nodup
      rw [List.map_append, List.nodup_append] at hnd
      exact hnd.2.2 _ (List.mem_map_of_mem hx) _ (List.mem_map_of_mem (List.mem_singleton.2 rfl)) (by rw [e, hk])
    obtain ⟨h6, h7⟩ := h1.put I.mem hmem hnew
    refine ⟨hd', gone, h6, h2, ?_, ?_, ?_⟩
    · intro t' k' hw
      rcases h7 t' k' hw with hw | rfl
      · obtain ⟨m, hm, e⟩ := h3 t' k' hw
        exact ⟨m, List.mem_append_left _ hm, e⟩
      · exact ⟨_, List.mem_append_right _ (List.mem_singleton.2 rfl), hk.symm⟩
    · intro m hm
      rw [List.map_append]
      exact List.mem_append_left _ (h4 m hm)
    · intro m hm
      rw [List.map_append]
      rw [List.mem_append] at hm ⊢
      rcases hm with hm | hm
      · exact .inl (h5 m hm)
      · exact .inr hm
  | @refused s ms wait spoilt quiet now o e _ hq hr ih =>
    obtain ⟨hd, gone, h1, h2, h3, h4, h5⟩ := ih
    have hr' : (s.forget.putEntry v now o).2.2 = .err e := by rw [Db.putEntry_forget]; exact hr
    have hd' := hd.refused now o e hq hr'
    rw [Db.putEntry_forget] at hd'
    have hmem : (s.putEntry v now o).1.mem = s.mem := Db.putEntry_err_mem (o' := (s.putEntry v now o).2.1) (e := e) (by rw [← hr])
    exact ⟨hd', gone, by rw [hmem]; exact h1, h2, by rw [hmem]; exact h3, h4, h5⟩
  | @get s ms wait spoilt quiet g q old _ ih =>
    obtain ⟨hd, gone, h1, h2, h3, h4, h5⟩ := ih
    obtain ⟨_, _, _, _, I, _⟩ := diary_inv hs hde htest hd
    obtain ⟨m, e1, e2⟩ := Db.get_same v g s q old
    have hk := Db.get_shaken v htest g s q old I.mem h1 (quiet && wait.isEmpty) (by
      intro hx
      rw [Bool.and_eq_true] at hx
      refine ⟨hx.1, fun t k hw => ?_⟩
      obtain ⟨m, hm, _⟩ := h3 t k hw
      rw [List.isEmpty_iff.1 hx.2] at hm
      cases hm)
    refine ⟨?_, gone, hk, h2, ?_, h4, h5⟩
    · have : (s.get v g q old).1.forget = s.forget := by
        rw [e1]
        simp only [Db.forget, e2.forget]
      rw [this]; exact hd
    · intro t k hw
      rw [e1] at hw
      exact h3 t k ((e2.where_iff t k).1 hw)
  | @rotate s ms wait spoilt quiet t _ ht ih =>
    obtain ⟨hd, gone, h1, h2, h3, h4, h5⟩ := ih
    obtain ⟨_, _, _, _, I, _⟩ := diary_inv hs hde htest hd
    have hd' := hd.rotate t ht
    refine ⟨?_, gone, h1.rotate I.mem t ht ?_, h2, ?_, h4, h5⟩
    · simp only [Db.forget, MemDb.rotate_forget] at hd' ⊢
      exact hd'
    · intro hx
      rw [Bool.or_eq_true, Bool.and_eq_true, decide_eq_true_eq] at hx
      rcases hx with hx | ⟨hx, hlt⟩
      · exact .inl hx
      · refine .inr ⟨hlt, fun t k hw => ?_⟩
        obtain ⟨m, hm, _⟩ := h3 t k hw
        rw [List.isEmpty_iff.1 hx] at hm
        cases hm
    · intro t' k hw
      exact h3 t' k ((I.mem.where_rotate t t' k).1 (by
        rw [show s.forget.mem = s.mem.forget from rfl, MemDb.rotate_forget]; exact hw))
  | @write s ms wait spoilt quiet id t _ ih =>
    obtain ⟨hd, gone, h1, h2, h3, h4, h5⟩ := ih
    obtain ⟨_, _, _, _, I, _⟩ := diary_inv hs hde htest hd
    have hd' := hd.write id t
    refine ⟨?_, gone, h1.write I.mem id t false, h2, ?_, h4, h5⟩
    · simp only [Db.forget, MemDb.write_forget] at hd' ⊢
      exact hd'
    · intro t' k hw
      exact h3 t' k ((I.mem.where_write id t false t' k).1 (by
        rw [show s.forget.mem = s.mem.forget from rfl, MemDb.write_forget]; exact hw))
  | @sync s s' ms wait spoilt quiet r e _ hnow hclock hord hroom hsy ih =>
    obtain ⟨hd, gone, h1, h2, h3, h4, h5⟩ := ih
    obtain ⟨_, _, _, _, I, _⟩ := diary_inv hs hde htest hd
    have hsy' : s.forget.sync e = some (s'.forget, r) := by rw [Db.sync_forget, hsy]; rfl
    have hd' := hd.sync e hnow hclock hord hroom hsy'
    obtain ⟨U', D', _, _, I', _⟩ := diary_inv hs hde htest hd'
    have hgb := Db.sync_gives hsy
    have hwait : ∀ t k, s'.mem.Where t k → ∃ m ∈ (if s'.pending = 0 then [] else wait), m.seq = k := by
      intro t k hw
      by_cases hz : s'.pending = 0
      · have hU : U' = [] := by
          have := I'.pending
          rw [show s'.forget.pending = s'.pending from rfl, hz] at this
          exact List.length_eq_zero_iff.1 this.symm
        have := (I'.mem.where_iff k).1 ⟨t, hw⟩
        rw [hU] at this
        simp [memMap] at this
      · rw [if_neg hz]
        exact h3 t k (hgb.where_sub hw)
    have hw5 : ∀ m ∈ (if s'.pending = 0 then [] else wait), m ∈ ms.map (·.1) := by
      intro m hm
      split at hm
      · cases hm
      · exact h5 m hm
    cases quiet with
    | true => exact ⟨hd', gone, h1.giveQuiet hgb, h2, hwait, h4, hw5⟩
    | false =>
      refine ⟨hd', _, h1.give I.mem hgb, ?_, hwait, ?_, hw5⟩
      · rintro k (hg | ⟨⟨t, hw⟩, _⟩)
        · obtain ⟨m, hm, e⟩ := h2 k hg
          exact ⟨m, List.mem_append_left _ hm, e⟩
        · obtain ⟨m, hm, e⟩ := h3 t k hw
          exact ⟨m, List.mem_append_right _ hm, e⟩
      · intro m hm
        simp only [Bool.false_eq_true, if_false, List.mem_append] at hm
        exact hm.elim (h4 m) (h5 m)

/-- A Get after a history with Gets and Syncs in any order. -/
theorem tale_get (v : DbEnv) (hs : v.mac.cipher.Sound) (hde : ∀ x, v.decode (v.encode x) = some x)
    (htest : ∀ ks k, k ∈ ks → v.mem.test ks k = true) (s : Db) (ms : List (Spec.Message × Int)) (wait spoilt : List Spec.Message) (quiet : Bool)
    (H : Spec.Tale v s ms wait spoilt quiet) (g : GetEnv) (q : Query) (hlen : s.store.data.length < 2 ^ 63) (ht0 : q.topic ≠ []) (ht1 : q.topic.length ≤ 65536)
    (hlim : ((Spec.addressedSince ms (q.ask v.dur g.now v.q).contract q.topic 0 0).length : Int) ≤ (q.ask v.dur g.now v.q).limit)
    (how : ∀ w, (g.orderWin w).Perm w) (hot : ∀ ts, (g.orderTopics ts).Perm ts)
    (hst : Spec.isStatic (Spec.topicText q.topic) = true) (hlq : (Spec.levels (Spec.topicText q.topic)).length ≤ 255)
    (hown : ∀ m ∈ ms, ∀ m' ∈ ms, topicHash m.1.contract m.1.topic = topicHash m'.1.contract m'.1.topic →
      (parseTopic m.1.contract m.1.topic).1.parts = (parseTopic m'.1.contract m'.1.topic).1.parts)
    (hcw : ∀ m ∈ ms, m.1.contract ≠ wildcardHash)
    (hh : ∀ m ∈ ms, ∀ p ∈ Spec.levels (Spec.topicText m.1.topic), Spec.isStar p = false → Hash.withSalt p m.1.contract ≠ wildcardHash ∧
      ∀ t ∈ Spec.levels (Spec.topicText q.topic), Hash.withSalt p m.1.contract = Hash.withSalt t m.1.contract → p = t)
    (hfirst : ∀ m ∈ Spec.addressedSince ms (q.ask v.dur g.now v.q).contract q.topic 0 0,
      (readWindowBlock s.winFile 0).map (·.topicHash) ≠ some (topicHash m.1.contract m.1.topic))
    (hcap : (Spec.addressedSince ms (q.ask v.dur g.now v.q).contract q.topic (toU32 (unixSec g.now)) 0).length ≤ g.cap)
    (hsp : v.stale = none ∨ ∀ m ∈ Spec.addressedSince ms (q.ask v.dur g.now v.q).contract q.topic 0 0, m.1 ∉ spoilt) :
    ∃ out : List (Spec.Message × Int), (s.get v g q []).2 = .out (.ok (out.map (·.1.payload))) ∧
      out.Perm (Spec.addressedSince ms (q.ask v.dur g.now v.q).contract q.topic (toU32 (unixSec g.now)) (q.ask v.dur g.now v.q).cutoff) ∧
      out.Pairwise (fun a b => a.1.seq > b.1.seq) := by
  obtain ⟨hd, gone, h1, h2, _, h4, _⟩ := tale_diary hs hde htest H
  obtain ⟨U, D, L, led, I, hp, _⟩ := diary_inv hs hde htest hd
  have hnd : (ms.map fun x => x.1.seq).Nodup := by
    refine ((hp.map fun x => x.1.seq).nodup_iff).1 ?_
    rw [List.map_map]
    exact I.nodup
  refine diary_get_from v hs hde htest s.forget ms true hd g q hlen ht0 ht1 hlim how hot hst hlq hown hcw hh hfirst hcap s.mem fun M hM => ⟨fun m => Loose v.mem m M gone, h1.loose hM, ?_⟩
  intro m hm x hx
  obtain ⟨g1, g2⟩ := hm.get htest x.1.seq
  refine ⟨g1, ?_⟩
  rcases g2 with g2 | ⟨hg, g2⟩
  · rw [g2]
    cases M x.1.seq <;> exact ⟨by simp, rfl⟩
  · rw [g2, hm.gone _ hg]
    refine ⟨by simp, ?_⟩
    rcases hsp with hsp | hsp
    · exact hsp
    · exfalso
      obtain ⟨y, hy, e⟩ := h2 _ hg
      obtain ⟨z, hz, rfl⟩ := List.mem_map.1 (h4 y hy)
      have hxm : x ∈ ms := (List.mem_filter.1 hx).1
      have : z = x := List.inj_on_of_nodup_map hnd hz hxm e
      subst this
      exact hsp z hx hy

/-- C68 with Gets and Syncs in any order (partial: without batches, deletes and restarts, the whole result fits the limit, no hash collisions,
not for the topic that was synced first, and no Sync with a clock behind the second of a message; and either reading a buffer that was given
back to the pool fails, or none of the messages asked for was in memory when a Sync came after a Get had looked there). A Get for a topic
without wildcards returns the payloads of exactly the messages put for that contract, whose topic covers the one asked for, and which have
not expired: each once, the one with the highest sequence first. -/
theorem C68_any_order_partial (v : DbEnv) (hs : v.mac.cipher.Sound) (hde : ∀ x, v.decode (v.encode x) = some x)
    (htest : ∀ ks k, k ∈ ks → v.mem.test ks k = true) (s : Db) (ms : List (Spec.Message × Int)) (wait spoilt : List Spec.Message) (quiet : Bool)
    (H : Spec.Tale v s ms wait spoilt quiet) (g : GetEnv) (q : Query) (hlen : s.store.data.length < 2 ^ 63) (ht0 : q.topic ≠ []) (ht1 : q.topic.length ≤ 65536)
    (hcut : (q.ask v.dur g.now v.q).cutoff ≤ 0) (hlim : ((Spec.addressed (ms.map (·.1)) (q.ask v.dur g.now v.q).contract q.topic 0).length : Int) ≤ (q.ask v.dur g.now v.q).limit)
    (how : ∀ w, (g.orderWin w).Perm w) (hot : ∀ ts, (g.orderTopics ts).Perm ts)
    (hst : Spec.isStatic (Spec.topicText q.topic) = true) (hlq : (Spec.levels (Spec.topicText q.topic)).length ≤ 255)
    (hown : ∀ m ∈ ms, ∀ m' ∈ ms, topicHash m.1.contract m.1.topic = topicHash m'.1.contract m'.1.topic →
      (parseTopic m.1.contract m.1.topic).1.parts = (parseTopic m'.1.contract m'.1.topic).1.parts)
    (hcw : ∀ m ∈ ms, m.1.contract ≠ wildcardHash)
    (hh : ∀ m ∈ ms, ∀ p ∈ Spec.levels (Spec.topicText m.1.topic), Spec.isStar p = false → Hash.withSalt p m.1.contract ≠ wildcardHash ∧
      ∀ t ∈ Spec.levels (Spec.topicText q.topic), Hash.withSalt p m.1.contract = Hash.withSalt t m.1.contract → p = t)
    (hfirst : ∀ m ∈ Spec.addressed (ms.map (·.1)) (q.ask v.dur g.now v.q).contract q.topic 0,
      (readWindowBlock s.winFile 0).map (·.topicHash) ≠ some (topicHash m.contract m.topic))
    (hcap : (Spec.addressed (ms.map (·.1)) (q.ask v.dur g.now v.q).contract q.topic (toU32 (unixSec g.now))).length ≤ g.cap)
    (hsp : v.stale = none ∨ ∀ m ∈ Spec.addressed (ms.map (·.1)) (q.ask v.dur g.now v.q).contract q.topic 0, m ∉ spoilt) :
    ∃ out : List Spec.Message, (s.get v g q []).2 = .out (.ok (out.map (·.payload))) ∧
      out.Perm (Spec.addressed (ms.map (·.1)) (q.ask v.dur g.now v.q).contract q.topic (toU32 (unixSec g.now))) ∧
      out.Pairwise (fun a b => a.seq > b.seq) := by
  have hsame : ∀ c now cut, cut ≤ 0 → (Spec.addressedSince ms c q.topic now cut).map (·.1) = Spec.addressed (ms.map (·.1)) c q.topic now := by
    intro c now cut hc
    rw [Spec.addressed, List.filter_map, Spec.addressedSince]
    congr 1
    apply List.filter_congr
    intro m _
    simp [hc]
  have hin : ∀ m ∈ Spec.addressedSince ms (q.ask v.dur g.now v.q).contract q.topic 0 0,
      m.1 ∈ Spec.addressed (ms.map (·.1)) (q.ask v.dur g.now v.q).contract q.topic 0 := by
    intro m hm
    rw [← hsame _ 0 0 (by decide)]
    exact List.mem_map_of_mem hm
  obtain ⟨out, h1, h2, h3⟩ := tale_get v hs hde htest s ms wait spoilt quiet H g q hlen ht0 ht1 (by rw [← hsame _ 0 0 (by decide), List.length_map] at hlim; exact hlim) how hot hst hlq hown hcw hh
    (fun m hm => hfirst _ (hin m hm)) (by rw [← hsame _ _ 0 (by decide), List.length_map] at hcap; exact hcap)
    (hsp.imp id fun h m hm => h _ (hin m hm))
  refine ⟨out.map (·.1), ?_, ?_, ?_⟩
  · rw [h1, List.map_map]; rfl
  · rw [← hsame _ _ _ hcut]
    exact h2.map _
  · rw [List.pairwise_map]; exact h3

/-- C96 with Gets and Syncs in any order (partial as `C68_any_order_partial`): a Get of `key?last=d` returns the payloads of exactly the
messages put for that contract, whose topic covers the key, which have not expired and which were put (or whose id was drawn) not longer
than `d` before the Get: each once, the one with the highest sequence first. -/
theorem C96_any_order_partial (v : DbEnv) (hs : v.mac.cipher.Sound) (hde : ∀ x, v.decode (v.encode x) = some x)
    (htest : ∀ ks k, k ∈ ks → v.mem.test ks k = true) (s : Db) (ms : List (Spec.Message × Int)) (wait spoilt : List Spec.Message) (quiet : Bool)
    (H : Spec.Tale v s ms wait spoilt quiet)
    (g : GetEnv) (q : Query) (hlen : s.store.data.length < 2 ^ 63) (key d : Bytes) (hk : key ≠ []) (hkq : 63 ∉ key) (hd : Spec.Plain d)
    (hdi : parseInt d = none) (hqt : q.topic = Spec.withOption key kLast d) (ht1 : q.topic.length ≤ 65536)
    (hcut : 0 < unixSec (g.now - v.dur d)) (hmax : 0 < v.q.max) (hl0 : 0 ≤ q.limit)
    (hlim : ((ms.filter fun m => decide (m.1.contract = (q.ask v.dur g.now v.q).contract) && Spec.covers (Spec.topicText m.1.topic) key).length : Int) ≤ if q.limit = 0 then v.q.default else min v.q.max q.limit)
    (how : ∀ w, (g.orderWin w).Perm w) (hot : ∀ ts, (g.orderTopics ts).Perm ts)
    (hst : Spec.isStatic key = true) (hlq : (Spec.levels key).length ≤ 255)
    (hown : ∀ m ∈ ms, ∀ m' ∈ ms, topicHash m.1.contract m.1.topic = topicHash m'.1.contract m'.1.topic →
      (parseTopic m.1.contract m.1.topic).1.parts = (parseTopic m'.1.contract m'.1.topic).1.parts)
    (hcw : ∀ m ∈ ms, m.1.contract ≠ wildcardHash)
    (hh : ∀ m ∈ ms, ∀ p ∈ Spec.levels (Spec.topicText m.1.topic), Spec.isStar p = false → Hash.withSalt p m.1.contract ≠ wildcardHash ∧
      ∀ t ∈ Spec.levels key, Hash.withSalt p m.1.contract = Hash.withSalt t m.1.contract → p = t)
    (hfirst : ∀ m ∈ ms, m.1.contract = (q.ask v.dur g.now v.q).contract → Spec.covers (Spec.topicText m.1.topic) key = true →
      (readWindowBlock s.winFile 0).map (·.topicHash) ≠ some (topicHash m.1.contract m.1.topic))
    (hcap : (ms.filter fun m => decide (m.1.contract = (q.ask v.dur g.now v.q).contract) && Spec.covers (Spec.topicText m.1.topic) key).length ≤ g.cap)
    (hsp : v.stale = none ∨ ∀ m ∈ ms, m.1.contract = (q.ask v.dur g.now v.q).contract → Spec.covers (Spec.topicText m.1.topic) key = true → m.1 ∉ spoilt) :
    ∃ out : List (Spec.Message × Int), (s.get v g q []).2 = .out (.ok (out.map (·.1.payload))) ∧
      out.Perm (ms.filter fun m => decide (m.1.contract = (q.ask v.dur g.now v.q).contract) && Spec.covers (Spec.topicText m.1.topic) key &&
        m.1.alive (toU32 (unixSec g.now)) && decide (unixSec (g.now - v.dur d) ≤ m.2)) ∧
      out.Pairwise (fun a b => a.1.seq > b.1.seq) := by
  obtain ⟨e1, e2⟩ := C24_last_duration v.dur g.now v.q q key d hk hkq hd hdi hmax hl0 hqt
  have ett : Spec.topicText q.topic = key := by rw [hqt]; exact topicText_withOption hk hkq (by decide) hd
  have hall : Spec.addressedSince ms (q.ask v.dur g.now v.q).contract q.topic 0 0 =
      ms.filter fun m => decide (m.1.contract = (q.ask v.dur g.now v.q).contract) && Spec.covers (Spec.topicText m.1.topic) key := by
    rw [Spec.addressedSince, ett]
    apply List.filter_congr
    intro m _
    simp [alive_zero]
  have hcap' : (Spec.addressedSince ms (q.ask v.dur g.now v.q).contract q.topic (toU32 (unixSec g.now)) 0).length ≤ g.cap := by
    refine Nat.le_trans (List.Sublist.length_le ?_) hcap
    rw [Spec.addressedSince, ett]
    refine List.monotone_filter_right ms fun m hm => ?_
    simp only [Bool.and_eq_true] at hm ⊢
    exact hm.1.1
  have hin : ∀ m ∈ Spec.addressedSince ms (q.ask v.dur g.now v.q).contract q.topic 0 0,
      m ∈ ms ∧ m.1.contract = (q.ask v.dur g.now v.q).contract ∧ Spec.covers (Spec.topicText m.1.topic) key = true := by
    intro m hm
    simp only [Spec.addressedSince, List.mem_filter, ett, Bool.and_eq_true, decide_eq_true_eq] at hm
    exact ⟨hm.1, hm.2.1.1.1, hm.2.1.1.2⟩
  obtain ⟨out, h1, h2, h3⟩ := tale_get v hs hde htest s ms wait spoilt quiet H g q hlen (by rw [hqt]; simp [Spec.withOption]) ht1 (by rw [e2, hall]; exact hlim) how hot
    (by rw [ett]; exact hst) (by rw [ett]; exact hlq) hown hcw (by rw [ett]; exact hh)
    (fun m hm => let ⟨a, b, c⟩ := hin m hm; hfirst m a b c) hcap'
    (hsp.imp id fun h m hm => let ⟨a, b, c⟩ := hin m hm; h m a b c)
  refine ⟨out, h1, ?_, h3⟩
  refine h2.trans (List.Perm.of_eq ?_)
  rw [Spec.addressedSince, ett, e1]
  apply List.filter_congr
  intro m _
  have : ¬ unixSec (g.now - v.dur d) ≤ 0 := by omega
  simp [this]

/-! ## A concrete history -/

/-- The toy environment, where a buffer given back reads as a record of another message. -/
def DbEnv.toyStale : DbEnv :=
  { DbEnv.toy with stale := some (packRecord ⟨3, 0, 4, 0, 77⟩ ([95, 94, 16, 0] ++ put32 masterContract) 0 [] [9, 9, 9, 9]) }

structure ToyTold where
  db : Db
  ms : List (Spec.Message × Int) := []
  wait : List Spec.Message := []
  spoilt : List Spec.Message := []
  quiet : Bool := true

/-- Histories in that environment, checked step by step. -/
def toyTold : List DbOp → ToyTold → Option ToyTold
  | [], x => some x
  | op :: ops, x =>
    match op with
    | .put now o =>
      if x.db.seq.toNat < 255 * 524287 ∧ o.id = none ∧ o.parsed = false ∧ o.topicSize = 0 ∧ o.payload.length ≤ 100 ∧
          Spec.startsWithStar (Spec.topicText o.topic) = false ∧ (Spec.levels (Spec.topicText o.topic)).length ≤ 254 ∧
          1555770000 ≤ unixSec now ∧ unixSec now < 1555770000 + 2 ^ 32 ∧ (x.db.putEntry .toyStale now o).2.2 = .ok
      then toyTold ops { x with db := (x.db.putEntry .toyStale now o).1, ms := x.ms ++ [(Spec.messageOf .toyStale now x.db o, unixSec now)], wait := x.wait ++ [Spec.messageOf .toyStale now x.db o] }
      else none
    | .get g q old => toyTold ops { x with db := (x.db.get .toyStale g q old).1, quiet := x.quiet && x.wait.isEmpty }
    | .rotate t =>
      if x.db.mem.cur ≤ t then
        toyTold ops { x with db := { x.db with mem := x.db.mem.rotate t }, quiet := x.quiet || (x.wait.isEmpty && decide (x.db.mem.cur < t)) }
      else none
    | .write id t => toyTold ops { x with db := { x.db with mem := x.db.mem.write id t false } }
    | .sync _ =>
      if (∀ m ∈ x.ms, m.2 ≤ 1600000000) ∧ x.db.winFile.length + 8192 * x.db.pending + 8192 ≤ 2 ^ 31 then
        (x.db.sync .toy).bind fun y => toyTold ops { x with db := y.1, wait := if y.1.pending = 0 then [] else x.wait, spoilt := if x.quiet then x.spoilt else x.spoilt ++ x.wait }
      else none
    | _ => none

theorem toyTold_tale (ops : List DbOp) : ∀ x y : ToyTold, Spec.Tale .toyStale x.db x.ms x.wait x.spoilt x.quiet → toyTold ops x = some y →
    Spec.Tale .toyStale y.db y.ms y.wait y.spoilt y.quiet := by
  induction ops with
  | nil =>
    intro x y H h
    simp only [toyTold, Option.some.injEq] at h
    subst h
    exact H
  | cons op ops ih =>
    intro x y H h
    cases op with
    | put now o =>
      simp only [toyTold] at h
      split at h
      · next hc =>
        obtain ⟨h1, h2, h3, h4, h5, h6, h7, h8, h9, h10⟩ := hc
        have hsane : Spec.Sane .toyStale o := (saneToy o (by rw [h2]; intro b hb; cases hb) (by omega) : Spec.Sane .toy o).rec fun a b => ⟨a, b⟩
        refine ih _ y (.put now o _ H h1 ⟨hsane, h3, h4, h6, h7, ?_⟩ (.inl ⟨h2, rfl⟩) ⟨h8, h9⟩ h10) h
        intro id q hi
        rw [h2] at hi; cases hi
      · cases h
    | get g q old => exact ih _ y (.get g q old H) h
    | rotate t =>
      simp only [toyTold] at h
      split at h
      · next hc => exact ih _ y (.rotate t H hc) h
      · cases h
    | write id t => exact ih _ y (.write id t H) h
    | sync e =>
      simp only [toyTold] at h
      split at h
      · next hc =>
        obtain ⟨hc2, hr⟩ := hc
        rw [Option.bind_eq_some_iff] at h
        obtain ⟨z, h1, h2⟩ := h
        exact ih _ y (.sync .toy H (by decide) (fun m hm => le_trans (hc2 m hm) (by decide)) (fun m => List.Perm.refl _) hr h1) h2
      · cases h
    | newId now => cases h
    | delete o => cases h
    | close id => cases h

/-- Such a history from an empty disk. -/
def toyTelling (ops : List DbOp) : Option ToyTold := (openDb .toyStale {} .toy .toy 5000 {}).db?.bind fun s => toyTold ops ⟨s, [], [], [], true⟩

theorem toyTelling_tale {ops : List DbOp} {x : ToyTold} (h : toyTelling ops = some x) : Spec.Tale .toyStale x.db x.ms x.wait x.spoilt x.quiet := by
  simp only [toyTelling, Option.bind_eq_some_iff] at h
  obtain ⟨s, h1, h2⟩ := h
  exact toyTold_tale ops _ x (.opened (by decide) rfl (OpenOut.db?_some h1)) h2

/-- A message of topic `a` is read and then synced, which spoils it. With nothing in memory a new block is begun; messages of topic `b.c`
are put and synced, read, one more is put and read. -/
def toyShaken : List DbOp :=
  [toyPut [97] 1, .get .toy (newQuery [97]) [], .write 5001 5000, .rotate 6000, .sync .toy, .rotate 7000, toyPutAgo 10 [98, 46, 99] 2, toyPut [98, 46, 99] 3,
    .write 7001 7000, .rotate 8000, .sync .toy, .get .toy (newQuery [98, 46, 99]) [], toyPut [98, 46, 99] 4, .get .toy (newQuery [98, 46, 99]) []]

/-- What `C68_any_order_partial` and `C96_any_order_partial` ask of the messages, for queries for `b.c`. -/
def toyAskAny (s : Db) (ms : List (Spec.Message × Int)) (spoilt : List Spec.Message) : Prop :=
  toyAsk s (ms.map (·.1)) .toy (newQuery [98, 46, 99]) ∧ toyAskLast s ms ∧ spoilt.length = 1 ∧
  (∀ m ∈ Spec.addressed (ms.map (·.1)) ((newQuery [98, 46, 99]).ask DbEnv.toy.dur GetEnv.toy.now DbEnv.toy.q).contract [98, 46, 99] 0, m ∉ spoilt) ∧
  (∀ m ∈ ms, m.1.contract = (toyLast.ask DbEnv.toy.dur GetEnv.toy.now DbEnv.toy.q).contract → Spec.covers (Spec.topicText m.1.topic) [98, 46, 99] = true →
    m.1 ∉ spoilt)

instance (s : Db) (ms : List (Spec.Message × Int)) (spoilt : List Spec.Message) : Decidable (toyAskAny s ms spoilt) := by
  unfold toyAskAny; infer_instance

/-- The hypotheses of both hold of that history, in which one message is spoilt. The Get of `b.c` returns three messages, that of `b.c?last=1h`
two. -/
example : ∃ (s : Db) (ms : List (Spec.Message × Int)) (wait spoilt : List Spec.Message) (quiet : Bool), Spec.Tale .toyStale s ms wait spoilt quiet ∧
    toyAskAny s ms spoilt ∧ (s.get .toyStale .toy (newQuery [98, 46, 99]) []).2 = .out (.ok [[4, 4, 4, 4], [3, 3, 3, 3], [2, 2, 2, 2]]) ∧
    (s.get .toyStale .toy toyLast []).2 = .out (.ok [[4, 4, 4, 4], [3, 3, 3, 3]]) := by
  have h : ((toyTelling toyShaken).map fun x => decide (toyAskAny x.db x.ms x.spoilt ∧
      (x.db.get .toyStale .toy (newQuery [98, 46, 99]) []).2 = .out (.ok [[4, 4, 4, 4], [3, 3, 3, 3], [2, 2, 2, 2]]) ∧
      (x.db.get .toyStale .toy toyLast []).2 = .out (.ok [[4, 4, 4, 4], [3, 3, 3, 3]]))) = some true := by decide +kernel
  rw [Option.map_eq_some_iff] at h
  obtain ⟨x, h1, h2⟩ := h
  exact ⟨x.db, x.ms, x.wait, x.spoilt, x.quiet, toyTelling_tale h1, of_decide_eq_true h2⟩

end Verif
