import Verif.Props.DbGet
import Verif.Model.ExpiryInv

/-!
# C76, C77: the background expirer
-/

namespace Verif

/-! ## The expiry windows -/

/-- What happens to the expiry windows: a Get at the Unix second `at` comes across the expired entry `e`; the expirer runs at the
second `now`. -/
inductive ExpOp where
  | add (at_ : UInt32) (e : WinEntry)
  | take (now : UInt32) (max : Int)

/-- The windows after some operations, and all that the expirer took. -/
def ExpBucket.run : List ExpOp → ExpBucket → ExpBucket × List WinEntry
  | [], b => (b, [])
  | .add _ e :: ops, b => ExpBucket.run ops (b.add e)
  | .take now max :: ops, b =>
    let r := b.take now max
    let z := ExpBucket.run ops r.1
    (z.1, r.2 ++ z.2)

/-- All entries filed. -/
def Spec.filed : List ExpOp → List WinEntry
  | [] => []
  | .add _ e :: ops => e :: Spec.filed ops
  | .take _ _ :: ops => Spec.filed ops

/-- Every entry was expired when it was filed, and that was at least a minute before the second `now`. -/
def Spec.aMinuteBefore (now : UInt32) (ops : List ExpOp) : Prop :=
  ∀ at_ e, ExpOp.add at_ e ∈ ops → e.isExpired at_ = true ∧ at_.toNat + 60 ≤ now.toNat

open ExpBucket in
theorem run_spec (ops : List ExpOp) : ∀ (b b' : ExpBucket) (out : List WinEntry), b.on = true → WF b.windows → ExpBucket.run ops b = (b', out) →
    b'.on = true ∧ WF b'.windows ∧ (waiting b.windows ++ Spec.filed ops).Perm (out ++ waiting b'.windows) ∧
    (∀ e ∈ out, expShard e.expiresAt = 0) ∧
    (b'.earliest = b.earliest ∨ b'.earliest = 0 ∨ ∃ e ∈ Spec.filed ops, b'.earliest = expTime e.expiresAt) := by
  induction ops with
  | nil =>
    intro b b' out ho w h
    simp only [ExpBucket.run, Prod.mk.injEq] at h
    obtain ⟨rfl, rfl⟩ := h
    exact ⟨ho, w, by simp [Spec.filed], by simp, .inl rfl⟩
  | cons op ops ih =>
    intro b b' out ho w h
    cases op with
    | add at_ e =>
      rw [ExpBucket.run] at h
      have hw : (b.add e).windows = b.windows.set (keyOf e) ((b.windows.get (keyOf e)).getD [] ++ [e]) := by rw [ExpBucket.add, if_pos ho]
      have he : (b.add e).earliest = if b.earliest = 0 then expTime e.expiresAt else b.earliest := by rw [ExpBucket.add, if_pos ho]
      obtain ⟨h1, h2, h3, h4, h5⟩ := ih (b.add e) b' out (by rw [ExpBucket.add, if_pos ho]; exact ho) (by rw [hw]; exact w.file e) h
      refine ⟨h1, h2, ?_, h4, ?_⟩
      · refine List.Perm.trans ?_ h3
        rw [hw, Spec.filed]
        exact List.perm_middle.trans ((waiting_file w e).symm.append_right _)
      · rcases h5 with h5 | h5 | ⟨x, h5, h6⟩
        · rw [he] at h5
          split at h5
          · exact .inr (.inr ⟨e, by simp [Spec.filed], h5⟩)
          · exact .inl h5
        · exact .inr (.inl h5)
        · exact .inr (.inr ⟨x, by simp [Spec.filed, h5], h6⟩)
    | take now max =>
      simp only [ExpBucket.run] at h
      obtain ⟨⟨b1, o1⟩, hr⟩ : ∃ r, r = b.take now max := ⟨_, rfl⟩
      rw [← hr] at h
      obtain ⟨t1, t2, t3, t4, t5, _⟩ := take_spec w hr.symm
      obtain ⟨⟨z1, z2⟩, hz⟩ : ∃ r, r = ExpBucket.run ops b1 := ⟨_, rfl⟩
      dsimp only at h
      rw [← hz] at h
      simp only [Prod.mk.injEq] at h
      obtain ⟨rfl, rfl⟩ := h
      obtain ⟨h1, h2, h3, h4, h5⟩ := ih b1 _ _ (t3.trans ho) t1 hz.symm
      refine ⟨h1, h2, ?_, ?_, ?_⟩
      · rw [Spec.filed]
        refine (t2.append_right _).trans ?_
        rw [List.append_assoc, List.append_assoc]
        exact (List.perm_append_left_iff _).mpr h3
      · intro e he
        rcases List.mem_append.mp he with he | he
        · exact (t5 e he).2
        · exact h4 e he
      · rcases h5 with h5 | h5 | ⟨x, h5, h6⟩
        · rw [h5]
          rcases t4 with t4 | t4
          · exact .inl t4
          · exact .inr (.inl t4)
        · exact .inr (.inl h5)
        · exact .inr (.inr ⟨x, h5, h6⟩)

theorem mem_filed {ops : List ExpOp} {e : WinEntry} (h : e ∈ Spec.filed ops) : ∃ at_, ExpOp.add at_ e ∈ ops := by
  induction ops with
  | nil => simp [Spec.filed] at h
  | cons op ops ih =>
    cases op with
    | add a x =>
      rw [Spec.filed, List.mem_cons] at h
      rcases h with rfl | h
      · exact ⟨a, by simp⟩
      · obtain ⟨b, hb⟩ := ih h; exact ⟨b, by simp [hb]⟩
    | take now max =>
      rw [Spec.filed] at h
      obtain ⟨b, hb⟩ := ih h; exact ⟨b, by simp [hb]⟩

/-- C76, the windows. For every sequence of filings and runs of the expirer: all that the expirer took, together with what still waits,
is exactly what was filed, so nothing is taken more often than it was filed; and a run at the second `now` takes only entries that
were filed before and whose time of expiry is past. -/
theorem C76_windows (ops : List ExpOp) :
    (∃ rest, (Spec.filed ops).Perm ((ExpBucket.run ops ⟨true, [], 0⟩).2 ++ rest)) ∧
    ∀ (now : UInt32) (max : Int), ∀ e ∈ ((ExpBucket.run ops ⟨true, [], 0⟩).1.take now max).2, e.expiresAt < now ∧ e ∈ Spec.filed ops := by
  obtain ⟨_, w, hp, _, _⟩ := run_spec ops ⟨true, [], 0⟩ _ _ rfl .nil rfl
  have hp' : (Spec.filed ops).Perm ((ExpBucket.run ops ⟨true, [], 0⟩).2 ++ ExpBucket.waiting (ExpBucket.run ops ⟨true, [], 0⟩).1.windows) := hp
  refine ⟨⟨_, hp'⟩, fun now max e he => ?_⟩
  obtain ⟨_, h2, _, _, h5, _⟩ := ExpBucket.take_spec w (b' := ((ExpBucket.run ops ⟨true, [], 0⟩).1.take now max).1)
    (out := ((ExpBucket.run ops ⟨true, [], 0⟩).1.take now max).2) rfl
  exact ⟨(h5 e he).1, hp'.symm.subset (List.mem_append_right _ (h2.symm.subset (List.mem_append_left _ he)))⟩

/-- C77 (partial: only for expiry times that fall into the first of the 100000 shards, and if not more than the default query limit
were taken). A run of the expirer at least a minute after the last filing takes all that waits: every entry filed has then been taken
as often as it was filed. -/
theorem C77_taken_partial (ops : List ExpOp) (now : UInt32) (max : Int) (h : Spec.aMinuteBefore now ops)
    (hmax : (((ExpBucket.run ops ⟨true, [], 0⟩).1.take now max).2.length : Int) ≤ max) (e : WinEntry) (hs : expShard e.expiresAt = 0) :
    ((ExpBucket.run ops ⟨true, [], 0⟩).2 ++ ((ExpBucket.run ops ⟨true, [], 0⟩).1.take now max).2).count e = (Spec.filed ops).count e := by
  obtain ⟨ho, w, hp, _, he⟩ := run_spec ops ⟨true, [], 0⟩ _ _ rfl .nil rfl
  have hp' : (Spec.filed ops).Perm ((ExpBucket.run ops ⟨true, [], 0⟩).2 ++ ExpBucket.waiting (ExpBucket.run ops ⟨true, [], 0⟩).1.windows) := hp
  obtain ⟨_, h2, _, _, _, h6⟩ := ExpBucket.take_spec w (b' := ((ExpBucket.run ops ⟨true, [], 0⟩).1.take now max).1)
    (out := ((ExpBucket.run ops ⟨true, [], 0⟩).1.take now max).2) rfl
  have hdue : ∀ x ∈ Spec.filed ops, expTime x.expiresAt ≤ now.toNat := by
    intro x hx
    obtain ⟨a, ha⟩ := mem_filed hx
    obtain ⟨h1, h3⟩ := h a x ha
    have h4 := ExpBucket.expTime_le x.expiresAt
    have h5 : x.expiresAt.toNat ≤ a.toNat := by
      simp only [WinEntry.isExpired, Bool.and_eq_true, decide_eq_true_eq] at h1
      exact UInt32.le_iff_toNat_le.mp h1.2
    omega
  have hear : (ExpBucket.run ops ⟨true, [], 0⟩).1.earliest ≤ now.toNat := by
    rcases he with he | he | ⟨x, hx, he⟩
    · rw [he]; exact Int.natCast_nonneg _
    · rw [he]; exact Int.natCast_nonneg _
    · rw [he]; exact hdue x hx
  have hno : (ExpBucket.waiting ((ExpBucket.run ops ⟨true, [], 0⟩).1.take now max).1.windows).count e = 0 := by
    rw [List.count_eq_zero]
    intro hm
    have h7 := h6 ho hear hmax e hm hs
    have h8 := hdue e (hp'.symm.subset (List.mem_append_right _ (h2.symm.subset (List.mem_append_right _ hm))))
    omega
  rw [hp'.count_eq, List.count_append, List.count_append, h2.count_eq, List.count_append, hno, Nat.add_zero]

/-- C77 is false for all other expiry times: an entry whose second of expiry does not fall into the first shard is never taken,
whatever happens. -/
theorem C77_never_violated (ops : List ExpOp) (e : WinEntry) (hs : expShard e.expiresAt ≠ 0) : e ∉ (ExpBucket.run ops ⟨true, [], 0⟩).2 := by
  obtain ⟨_, _, _, h, _⟩ := run_spec ops ⟨true, [], 0⟩ _ _ rfl .nil rfl
  exact fun he => hs (h e he)

/-- A sequence for both: three entries filed, two of one second in the first shard, one of another; then a run two minutes later. -/
def toyFiled : List ExpOp := [.add 1600025100 ⟨7, 1600025019⟩, .add 1600025100 ⟨8, 1600025019⟩, .take 1600025101 1000, .add 1600025102 ⟨9, 1600025020⟩]

example : expShard 1600025019 = 0 ∧ expShard 1600025020 ≠ 0 ∧ ((ExpBucket.run toyFiled ⟨true, [], 0⟩).1.take 1600025200 1000).2 = [] ∧
    (ExpBucket.run toyFiled ⟨true, [], 0⟩).2 = [⟨7, 1600025019⟩, ⟨8, 1600025019⟩] := by decide +kernel

example : Spec.aMinuteBefore 1600025200 toyFiled := by
  intro a e h
  simp only [toyFiled, List.mem_cons, reduceCtorEq, ExpOp.add.injEq, List.not_mem_nil, or_false, false_or] at h
  rcases h with ⟨rfl, rfl⟩ | ⟨rfl, rfl⟩ | ⟨rfl, rfl⟩ <;> decide

/-! ## The database -/

theorem mem_dead {now : UInt32} {es : List WinEntry} {e : WinEntry} (h : e ∈ dead now es) : e ∈ es ∧ e.isExpired now = true := by
  simpa [dead] using h

theorem ilookupDead_mem (now : UInt32) (limit : Int) (lists : List (List WinEntry)) : ∀ (l : Int), ∀ e ∈ ilookupDead now limit lists l,
    e.isExpired now = true ∧ ∃ es ∈ lists, e ∈ es := by
  induction lists with
  | nil => intro l e h; simp [ilookupDead] at h
  | cons es rest ih =>
    intro l e h
    rw [ilookupDead] at h
    split at h
    · rcases List.mem_append.mp h with h | h
      · obtain ⟨h1, h2⟩ := mem_dead h
        exact ⟨h2, es, by simp, List.mem_reverse.mp (List.mem_of_mem_take h1)⟩
      · obtain ⟨h1, x, h2, h3⟩ := ih _ e h
        exact ⟨h1, x, by simp [h2], h3⟩
    · obtain ⟨h1, x, h2, h3⟩ := ih _ e h
      exact ⟨h1, x, by simp [h2], h3⟩

theorem lookupBlockDead_mem {now : UInt32} {hash : UInt64} {b : WinBlock} {acc : List WinEntry} {limit : Int} {e : WinEntry}
    (h : e ∈ lookupBlockDead now hash b acc limit) : e.isExpired now = true ∧ b.topicHash = hash ∧ e ∈ used b := by
  have hr : ∀ x, x ∈ dead now (b.entries.take b.entryIdx.toNat).reverse → x.isExpired now = true ∧ x ∈ used b := by
    intro x hx
    obtain ⟨h1, h2⟩ := mem_dead hx
    exact ⟨h2, List.mem_reverse.mp h1⟩
  have ht : ∀ (n : Nat) x, x ∈ dead now ((b.entries.take b.entryIdx.toNat).reverse.take n) → x.isExpired now = true ∧ x ∈ used b := by
    intro n x hx
    obtain ⟨h1, h2⟩ := mem_dead hx
    exact ⟨h2, List.mem_reverse.mp (List.mem_of_mem_take h1)⟩
  rw [lookupBlockDead] at h
  split at h
  · simp at h
  · next hh =>
    have hh' : b.topicHash = hash := by simpa using hh
    dsimp only at h
    split at h
    · split at h
      · exact ⟨(ht _ e h).1, hh', (ht _ e h).2⟩
      · rcases List.mem_append.mp h with h | h
        · exact ⟨(ht _ e h).1, hh', (ht _ e h).2⟩
        · exact ⟨(hr e h).1, hh', (hr e h).2⟩
    · exact ⟨(hr e h).1, hh', (hr e h).2⟩

theorem lookupChainDead_mem {sf : Prop} {now : UInt32} {file : Bytes} {led : List (UInt64 × List WinEntry)} {offs : UInt64 → Int} {n : Nat}
    {B : Nat → WinBlock} {ks : UInt64 → List Nat} (d : OnDisk sf file led offs n B ks) {hash : UInt64} {cutoff : Int} (r : List Nat) :
    ∀ (k : Nat) (fuel : Nat) (acc : List WinEntry) (limit : Int), IsChain B hash (k :: r) → (∀ j ∈ k :: r, j < n) →
      ∀ e ∈ lookupChainDead now file hash cutoff fuel (4096 * k) acc limit, e.isExpired now = true ∧ e ∈ syncedFor led hash := by
  induction r with
  | nil =>
    intro k fuel acc limit c hk e he
    cases fuel with
    | zero => simp [lookupChainDead] at he
    | succ fuel =>
      rw [lookupChainDead, d.read k (hk k (by simp))] at he
      dsimp only at he
      rcases List.mem_append.mp he with he | he
      · obtain ⟨h1, h2, h3⟩ := lookupBlockDead_mem he
        exact ⟨h1, h2 ▸ d.member k e h3⟩
      · split at he
        · simp at he
        · simp at he
        · rw [if_pos c.2.2] at he; simp at he
  | cons j r ih =>
    intro k fuel acc limit c hk e he
    cases fuel with
    | zero => simp [lookupChainDead] at he
    | succ fuel =>
      rw [lookupChainDead, d.read k (hk k (by simp))] at he
      dsimp only at he
      rcases List.mem_append.mp he with he | he
      · obtain ⟨h1, h2, h3⟩ := lookupBlockDead_mem he
        exact ⟨h1, h2 ▸ d.member k e h3⟩
      · have hj : j < n := hk j (by simp)
        have hjn := d.bound
        have hnext : (B k).next = Int64.ofInt (4096 * j) := c.2.2.2.1
        have hval : (B k).next.toInt = 4096 * j := by
          rw [hnext, Int64.toInt_ofInt_of_le (by omega) (by omega)]
        split at he
        · simp at he
        · simp at he
        · split at he
          · simp at he
          · rw [hval] at he
            exact ih j fuel _ _ c.tail (fun i hi => hk i (List.mem_cons_of_mem _ hi)) e he

/-- The expired entries met in the lookup of one topic. -/
theorem windowLookupDead_mem {s : WinState} {led : List (UInt64 × List WinEntry)} (H : WinOK s led) (now : UInt32)
    (lists : List (List WinEntry)) (h : UInt64) (cutoff limit : Int) :
    ∀ e ∈ windowLookupDead now lists s.file h (s.offs h) cutoff limit, e.isExpired now = true ∧ ((∃ es ∈ lists, e ∈ es) ∨ e ∈ syncedFor led h) := by
  intro e he
  obtain ⟨n, B, ks, d⟩ := H.onDisk
  rw [windowLookupDead] at he
  rcases List.mem_append.mp he with he | he
  · obtain ⟨h1, h2⟩ := ilookupDead_mem now limit lists 0 e he
    exact ⟨h1, .inl h2⟩
  · split at he
    · simp at he
    · rw [d.offs h] at he
      cases hk : ks h with
      | nil =>
        rw [hk] at he
        simp only [headOff] at he
        rw [lookupChainDead] at he
        by_cases hn : 0 < n
        · have hr : readWindowBlock s.file 0 = some (B 0) := by simpa using d.read 0 hn
          rw [hr] at he
          dsimp only at he
          rcases List.mem_append.mp he with he | he
          · obtain ⟨h1, h2, h3⟩ := lookupBlockDead_mem he
            exact ⟨h1, .inr (h2 ▸ d.member 0 e h3)⟩
          · have hled : led ≠ [] := fun h0 => by have := d.empty h0; omega
            have hz := (d.first hled).1
            split at he
            · simp at he
            · simp at he
            · rw [if_pos hz] at he; simp at he
        · have hlen := d.len
          have : s.file = [] := List.length_eq_zero_iff.mp (by omega)
          rw [this] at he
          simp [readWindowBlock, readAt, slice?, blockSize] at he
      | cons k r =>
        rw [hk] at he
        have hch := d.chain h
        have hkn := d.known h
        rw [hk] at hch hkn
        simp only [headOff] at he
        obtain ⟨h1, h2⟩ := lookupChainDead_mem d r k _ _ _ hch hkn e he
        exact ⟨h1, .inr h2⟩

theorem dbLookupDead_mem {now : UInt32} {lists : UInt64 → List (List WinEntry)} {file : Bytes} {cutoff limit : Int} (P : WinEntry → Prop)
    (ts : List (UInt64 × Int)) (hP : ∀ t ∈ ts, ∀ lim, ∀ e ∈ windowLookupDead now (lists t.1) file t.1 t.2 cutoff lim, P e) :
    ∀ cands, ∀ e ∈ dbLookupDead now lists file cutoff limit ts cands, P e := by
  induction ts with
  | nil => intro cands e he; simp [dbLookupDead] at he
  | cons t ts ih =>
    intro cands e he
    obtain ⟨h, off⟩ := t
    rw [dbLookupDead] at he
    split at he
    · simp at he
    · rcases List.mem_append.mp he with he | he
      · exact hP (h, off) (by simp) _ e he
      · split at he
        · simp at he
        · exact ih (fun t ht => hP t (by simp [ht])) _ e he

/-- C76, filing. After any history as in C68, whatever a Get asks for, every entry it files for the expirer is that of a message that was
put, with that message's time of expiry, which has come when the Get runs. -/
theorem C76_filed (v : DbEnv) (hs : v.mac.cipher.Sound) (hde : ∀ x, v.decode (v.encode x) = some x)
    (htest : ∀ ks k, k ∈ ks → v.mem.test ks k = true) (s : Db) (ms : List Spec.Message) (quiet : Bool) (H : Spec.Story v s ms quiet)
    (g : GetEnv) (how : ∀ w, (g.orderWin w).Perm w) (hot : ∀ ts, (g.orderTopics ts).Perm ts) (q : Query) (old : List UInt64) :
    ∀ e ∈ s.getDead v g q old, ∃ m ∈ ms, m.seq = e.seq ∧ m.expiry = e.expiresAt ∧ m.alive (toU32 (unixSec g.now)) = false := by
  obtain ⟨U, D, L, led, I, hp, _, _⟩ := story_inv hs hde htest H
  obtain ⟨ops, htr, hops1, hops2⟩ := I.trie
  obtain ⟨w, HW⟩ := I.hist
  have hdep := depth_consistent ops (by
    intro c key off hin
    obtain ⟨i, hi, _, rfl⟩ := hops2 c key off hin
    exact (I.ok i hi).plain)
  intro e he
  rw [Db.getDead] at he
  split at he
  · simp at he
  split at he
  · simp at he
  split at he
  · simp at he
  revert e
  refine dbLookupDead_mem _ _ ?_ old
  intro t ht lim e he
  obtain ⟨x, hx, rfl⟩ := List.mem_map.1 ht
  have hx' : x ∈ (Trie.ofTopics ops).find (q.ask v.dur g.now v.q).contract q.topic := by
    rw [← htr]; exact (hot _).mem_iff.1 hx
  obtain ⟨h1, _⟩ := offset_of_find depthOf hdep hx'
  have hoff : x.offset.toInt = offsOf s.trie x.hash := by simp only [offsOf, htr, h1, Option.getD_some]
  dsimp only at he
  rw [hoff] at he
  obtain ⟨hex, hin⟩ := windowLookupDead_mem HW (toU32 (unixSec g.now)) _ x.hash _ lim e he
  obtain ⟨i, hi, rfl⟩ : ∃ i ∈ U ++ D, i.win = e := by
    rcases hin with ⟨es, h1, h2⟩ | hin
    · have := (I.serves.lists_perm g.orderWin (how _) x.hash).subset (List.mem_flatten.mpr ⟨es, h1, h2⟩)
      obtain ⟨i, hi, rfl⟩ := List.mem_map.1 this
      exact ⟨i, List.mem_append_left _ (List.mem_of_mem_filter hi), rfl⟩
    · rw [I.synced] at hin
      obtain ⟨i, hi, rfl⟩ := List.mem_map.1 hin
      exact ⟨i, List.mem_append_right _ (List.mem_of_mem_filter hi), rfl⟩
  refine ⟨i.msg, hp.subset (List.mem_map_of_mem hi), rfl, rfl, ?_⟩
  rw [WinEntry.isExpired, Bool.and_eq_true] at hex
  have h1 : ¬ toU32 (unixSec g.now) < i.exp := UInt32.not_lt.2 (of_decide_eq_true hex.2)
  have h0 : i.exp ≠ 0 := of_decide_eq_true hex.1
  show (decide (i.exp = 0) || decide (toU32 (unixSec g.now) < i.exp)) = false
  rw [decide_eq_false h0, decide_eq_false h1]
  rfl

theorem Db.expireAll_fields : ∀ (es : List WinEntry) {s s' : Db} {r : DOut}, s.expireAll es = some (s', r) →
    ∃ lease cnt, s' = { s with store := { s.store with lease := lease }, count := cnt } := by
  intro es
  induction es with
  | nil =>
    intro s s' r h
    simp only [Db.expireAll, Option.some.injEq, Prod.mk.injEq] at h
    exact ⟨s.store.lease, s.count, h.1.symm⟩
  | cons we rest ih =>
    intro s s' r h
    rw [Db.expireAll] at h
    split at h
    · simp only [Option.some.injEq, Prod.mk.injEq] at h
      exact ⟨s.store.lease, s.count, h.1.symm⟩
    · simp only [Option.bind_eq_some_iff] at h
      obtain ⟨l, _, h⟩ := h
      obtain ⟨lease, cnt, rfl⟩ := ih h
      exact ⟨lease, cnt, rfl⟩

/-- C76, what Gets see. In every state, a run of the expirer changes the answer of no Get: no message, expired or not, is lost to a Get by
the run itself. (What a later Sync does with the freed space is `C76_live_violated`.) -/
theorem C76_gets (v : DbEnv) (x x' : XDb) (now : UInt32) (r : DOut) (h : x.expire v now = some (x', r)) (g : GetEnv) (q : Query) (old : List UInt64) :
    (x'.db.get v g q old).2 = (x.db.get v g q old).2 := by
  rw [XDb.expire] at h
  split at h
  · simp only [Option.some.injEq, Prod.mk.injEq] at h
    rw [h.1]
  · simp only [Option.map_eq_some_iff, Prod.mk.injEq] at h
    obtain ⟨⟨s', r'⟩, h, rfl, _⟩ := h
    obtain ⟨lease, cnt, rfl⟩ := Db.expireAll_fields _ h
    simp only [Db.get]
    split
    · rfl
    split
    · rfl
    split
    · rfl
    split <;> rfl

/-! ## Histories with the expirer -/

/-- A call or background step: one of the database other than a Get, a Get, or a run of the expirer. -/
inductive XOp where
  | db (op : DbOp)
  | get (g : GetEnv) (q : Query) (old : List UInt64)
  | expire (now : UInt32)

/-- What is seen of it. -/
inductive XRes where
  | db (r : DbRes)
  | got (r : DGet)
  | out (r : DOut)
deriving DecidableEq

def XDb.step (v : DbEnv) (x : XDb) : XOp → Option (XDb × XRes)
  | .db op => (x.db.step v op).map fun y => (⟨y.1, x.exp⟩, .db y.2)
  | .get g q old => let r := x.get v g q old; some (r.1, .got r.2)
  | .expire now => (x.expire v now).map fun y => (y.1, .out y.2)

def XDb.run (v : DbEnv) : List XOp → XDb → Option (XDb × List XRes)
  | [], x => some (x, [])
  | op :: ops, x => (x.step v op).bind fun y => (XDb.run v ops y.1).map fun z => (z.1, y.2 :: z.2)

/-- A history on a new database with background expiry. -/
def toyWatch (ops : List XOp) : Option (XDb × List XRes) := (toyOpen {} 5000 {}).bind fun s => XDb.run .toy ops ⟨s, ⟨true, [], 0⟩⟩

/-- A Get at a Unix second. -/
def toyLook (sec : Int) (topic : Bytes) : XOp := .get ⟨sec * 1000000000, id, id, 16⟩ (newQuery topic) []

/-- A put of ten bytes, and a Sync with the background work before it. -/
def toyTen (topic : Bytes) (x : UInt8) (exp : UInt32) : XOp := .db (.put toyNow { topic := topic, payload := List.replicate 10 x, expiresAt := exp })
def toyFlush (t : Int) : List XOp := [.db (.write (t + 1) t), .db (.rotate (t + 1000)), .db (.sync .toy)]

/-- Messages in `e`, `a` and `d`; the one in `a` expires in a second of the first shard. -/
def toyMortal : List XOp := [toyTen [101] 9 0, toyTen [97] 1 1600025019, toyTen [100] 5 0] ++ toyFlush 5000

/-- `C76_gets` at work: a run that frees the expired message, with Gets before and after it. -/
example : (toyWatch (toyMortal ++ [toyLook 1600025200 [97], toyLook 1600025200 [101], .expire 1600025300, toyLook 1600025300 [97], toyLook 1600025300 [101]])).map
    (fun x => (x.2.drop 6, x.1.db.count, x.1.db.store.lease.size)) =
    some ([.got (.out (.ok [])), .got (.out (.ok [List.replicate 10 9])), .out .ok, .got (.out (.ok [])), .got (.out (.ok [List.replicate 10 9]))], 2, 50) := by
  decide +kernel

/-- C76 is false: "each once". Two Gets come across the same expired message; the run that follows counts it out twice, though one of
the three synced messages expired. -/
theorem C76_twice_violated : (toyWatch (toyMortal ++ [toyLook 1600025200 [97], toyLook 1600025200 [97], .expire 1600025300])).map
    (fun x => (x.2.drop 6, x.1.db.count)) = some ([.got (.out (.ok [])), .got (.out (.ok [])), .out .ok], 1) := by decide +kernel

/-- C76 is false: "affects no live message". The space of the expired message goes to a new message in `b`. The next Get on the topic of
the expired one files it again, the next run frees its space again, and the next Sync puts a message of topic `f` there: a Get for
topic `b` returns the payload of the message in `f`. -/
theorem C76_live_violated : (toyWatch ([toyTen [101] 9 0, toyTen [97] 1 1600025019] ++ toyFlush 5000 ++ [toyLook 1600025200 [97], .expire 1600025300, toyTen [98] 2 0] ++
    toyFlush 6000 ++ [toyLook 1600035200 [97], .expire 1600035300, toyTen [102] 3 0] ++ toyFlush 7000 ++ [toyLook 1600055200 [98]])).map (fun x => x.2.getLast?) =
    some (some (.got (.out (.ok [List.replicate 10 3])))) := by decide +kernel

/-- C77 is false: a message that expires one second later falls into another shard. A Get comes across it; the expirer, years later,
does not remove it. -/
theorem C77_second_violated : (toyWatch ([toyTen [101] 9 0, toyTen [97] 1 1600025020, toyTen [100] 5 0] ++ toyFlush 5000 ++
    [toyLook 1600025200 [97], .expire 1600025300, .expire 1700025300])).map (fun x => (x.1.db.count, x.1.db.store.lease.size)) = some (3, 0) := by decide +kernel

end Verif
