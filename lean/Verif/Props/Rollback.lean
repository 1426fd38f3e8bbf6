import Verif.Model.Rollback
import Verif.Props.Engine

/-!
# C103: a sync that stops does no harm to what was stored before
-/

namespace Verif

/-- The records of the ledger are placed in the files. -/
def Placed (s : Store) (g : Spec.Ledger) : Prop :=
  ∃ L : Loc, SInv s L g.freed ∧ L.map (·.1) = g.stored ∧ (∀ r ∈ g.stored, Spec.Storable r) ∧ s.data.length < 2 ^ 63

theorem newRecs_sub {r : Rec} (xs : List Rec) : ∀ (kn : List UInt64), r ∈ newRecs kn xs → r ∈ xs := by
  induction xs with
  | nil => intro kn h; simp [newRecs] at h
  | cons x xs ih2 =>
    intro kn h
    rw [newRecs] at h
    split at h
    · exact List.mem_cons_of_mem _ (ih2 _ h)
    · rcases List.mem_cons.1 h with rfl | h
      · simp
      · exact List.mem_cons_of_mem _ (ih2 _ h)

theorem stored_after {L L' : Loc} {stored : List Rec} {rounds : List (List Rec)} (hL : L.map (·.1) = stored) (hOK : ∀ r ∈ stored, Spec.Storable r)
    (h3 : L'.map (·.1) = newRecs (L.map (·.1.seq)) rounds.flatten) (hst : ∀ rs ∈ rounds, ∀ r ∈ rs, Spec.Storable r) :
    (L ++ L').map (·.1) = Spec.firsts stored rounds.flatten ∧ ∀ r ∈ Spec.firsts stored rounds.flatten, Spec.Storable r := by
  have hseq : L.map (·.1.seq) = stored.map (·.seq) := by rw [← hL, List.map_map]; rfl
  refine ⟨by rw [List.map_append, hL, h3, hseq]; exact (firsts_eq _ _).symm, fun r hr => ?_⟩
  rw [firsts_eq, List.mem_append] at hr
  rcases hr with hr | hr
  · exact hOK r hr
  · obtain ⟨rs, hrs, hr⟩ := List.mem_flatten.1 (newRecs_sub _ _ hr)
    exact hst rs hrs r hr

theorem Placed.sync {s s' : Store} {g : Spec.Ledger} (h : Placed s g) {rounds : List (List Rec)} (hst : ∀ rs ∈ rounds, ∀ r ∈ rs, Spec.Storable r)
    (hrun : syncAll s rounds = some s') (hlen : s'.data.length < 2 ^ 63) : Placed s' ⟨Spec.firsts g.stored rounds.flatten, g.freed⟩ := by
  obtain ⟨L, hS, hL, hOK, _⟩ := h
  obtain ⟨s2, L', h1, h2, h3, _⟩ := syncAll_spec hS rounds (fun rs hrs r hr => (hst rs hrs r hr).ok)
  rw [hrun] at h1
  cases h1
  obtain ⟨a, b⟩ := stored_after hL hOK h3 hst
  exact ⟨L ++ L', h2, a, b, hlen⟩

theorem expire_placed {s s' : Store} {g : Spec.Ledger} {L : Loc} (hS : SInv s L g.freed) (hL : L.map (·.1) = g.stored) (hOK : ∀ r ∈ g.stored, Spec.Storable r) (hlen : s.data.length < 2 ^ 63)
    {q : UInt64} (hq : ∃ r ∈ g.stored, r.seq = q) (hqf : q ∉ g.freed) (hrun : expireOne s q = some s') :
    SInv s' L (q :: g.freed) ∧ L.map (·.1) = g.stored ∧ (∀ r ∈ g.stored, Spec.Storable r) ∧ s'.data.length < 2 ^ 63 := by
  obtain ⟨r, hr, rfl⟩ := hq
  rw [← hL, List.mem_map] at hr
  obtain ⟨p, hp, rfl⟩ := hr
  have hst := hOK p.1 (by rw [← hL]; exact List.mem_map.2 ⟨p, hp, rfl⟩)
  have hle := slice?_le (hS.data.bytes p hp hqf)
  have hsz := hst.sized
  simp only [List.append_nil] at hle
  have ho : p.2 < 2 ^ 63 := by omega
  have e1 : (Int64.ofInt (p.2 : Int)).toInt = p.2 := Int64.toInt_ofInt_of_le (by omega) (by omega)
  have hmem : (⟨p.2, p.1.cache.length⟩ : FB) ∈ usedOf L g.freed := mem_usedOf.2 ⟨p, hp, hqf, rfl⟩
  obtain ⟨g', hs'⟩ := sound_step_free hS.data.good hS.data.sound hmem
  have hap := (Lease.pairwise_perm ((List.perm_cons_erase hmem).append_right s.lease.all)).1 hS.data.sound.apart
  rw [List.cons_append, List.pairwise_cons] at hap
  obtain ⟨_, hperm, _⟩ := Lease.good_free hS.data.good p.2 p.1.cache.length (by omega)
    (fun x hx => hap.1 x (List.mem_append_right _ hx)) (fun x hx => (hS.data.sound.pos x (List.mem_append_right _ hx)).1)
  have e2 := mSize_eq hst p.2
  have hrun' : s' = { s with lease := s.lease.freeBlock p.2 p.1.cache.length } := by
    simp only [expireOne, hS.readEntry hp ho, Lease.free] at hrun
    rw [show toEntry p = toEntry (p.1, p.2) from rfl, e2] at hrun
    rw [if_neg (by omega)] at hrun
    simp only [toEntry, e1, Option.map_some, Option.some.injEq] at hrun
    exact hrun.symm
  subst hrun'
  have hused : (usedOf L g.freed).Perm (⟨p.2, p.1.cache.length⟩ :: usedOf L (p.1.seq :: g.freed)) := by
    have : ∀ M : Loc, (M.map (·.1.seq)).Nodup → p ∈ M →
        (usedOf M g.freed).Perm (⟨p.2, p.1.cache.length⟩ :: usedOf M (p.1.seq :: g.freed)) := by
      intro M
      induction M with
      | nil => intro _ h; simp at h
      | cons x M ihM =>
        intro hnd hm
        rw [List.map_cons, List.nodup_cons] at hnd
        by_cases hx : x = p
        · subst hx
          have e : usedOf M (x.1.seq :: g.freed) = usedOf M g.freed := by
            unfold usedOf
            congr 1
            apply List.filter_congr
            intro y hy
            have : y.1.seq ≠ x.1.seq := fun hc => hnd.1 (List.mem_map.2 ⟨y, hy, hc⟩)
            simp [this]
          have e3 : usedOf (x :: M) g.freed = ⟨x.2, x.1.cache.length⟩ :: usedOf M g.freed := by
            simp [usedOf, hqf]
          have e4 : usedOf (x :: M) (x.1.seq :: g.freed) = usedOf M (x.1.seq :: g.freed) := by
            simp [usedOf]
          rw [e3, e4, e]
        · have hm' : p ∈ M := by
            rcases List.mem_cons.1 hm with h | h
            · exact absurd h.symm hx
            · exact h
          have hne : x.1.seq ≠ p.1.seq := fun hc => hnd.1 (hc ▸ List.mem_map.2 ⟨p, hm', rfl⟩)
          have := ihM hnd.2 hm'
          by_cases hxf : x.1.seq ∈ g.freed
          · have e3 : usedOf (x :: M) g.freed = usedOf M g.freed := by simp [usedOf, hxf]
            have e4 : usedOf (x :: M) (p.1.seq :: g.freed) = usedOf M (p.1.seq :: g.freed) := by simp [usedOf, hxf]
            rw [e3, e4]; exact this
          · have e3 : usedOf (x :: M) g.freed = ⟨x.2, x.1.cache.length⟩ :: usedOf M g.freed := by simp [usedOf, hxf]
            have e4 : usedOf (x :: M) (p.1.seq :: g.freed) = ⟨x.2, x.1.cache.length⟩ :: usedOf M (p.1.seq :: g.freed) := by
              simp [usedOf, hxf, hne]
            rw [e3, e4]
            exact (this.cons _).trans (List.Perm.swap _ _ _)
    exact this L hS.loc.nodup hp
  refine ⟨⟨hS.file, ⟨by simp, g', ?_, ?_, ?_⟩, hS.loc, ?_⟩, hL, hOK, hlen⟩
  · refine sound_perm ?_ hs'
    have := (List.perm_cons_erase hmem).symm.trans hused
    exact List.Perm.cons_inv this
  · intro b hb
    rcases List.mem_cons.1 (hperm.subset hb) with rfl | hb
    · exact ⟨by simp only; omega, hst.small⟩
    · exact hS.data.freeIn b hb
  · intro x hx hxf
    exact hS.data.bytes x hx (fun hc => hxf (List.mem_cons_of_mem _ hc))
  · intro x hx
    rcases List.mem_cons.1 hx with rfl | hx
    · exact List.mem_map.2 ⟨p, hp, rfl⟩
    · exact hS.sub x hx

theorem Placed.expire {s s' : Store} {g : Spec.Ledger} (h : Placed s g) {q : UInt64} (hq : ∃ r ∈ g.stored, r.seq = q) (hqf : q ∉ g.freed)
    (hrun : expireOne s q = some s') : Placed s' ⟨g.stored, q :: g.freed⟩ := by
  obtain ⟨L, hS, hL, hOK, hlen⟩ := h
  exact ⟨L, expire_placed hS hL hOK hlen hq hqf hrun⟩

theorem Placed.reopen {s : Store} {g : Spec.Ledger} {m : Int} {l' : Lease} (h : Placed s g) (hn : Spec.noNeighbours s.lease) (hl : s.lease.all.length < 357913941)
    (hrun : (Lease.new m).read s.lease.defrag.write = some l') : Placed { s with lease := l' } g := by
  obtain ⟨L, hS, hL, hOK, hlen⟩ := h
  obtain ⟨g1, hp1, _⟩ := Lease.good_defrag hS.data.good hn
  have hap : s.lease.defrag.all.Pairwise Lease.Apart := by
    rw [Lease.pairwise_perm hp1]
    exact (List.pairwise_append.1 hS.data.sound.apart).2.1
  have hpos : ∀ b ∈ s.lease.defrag.all, 0 < b.size ∧ 0 ≤ b.offset := fun b hb =>
    hS.data.sound.pos b (List.mem_append_right _ (hp1.subset hb))
  have hfi : ∀ b ∈ s.lease.defrag.all, b.offset + b.size ≤ s.data.length ∧ b.size < 2 ^ 32 := fun b hb =>
    hS.data.freeIn b (hp1.subset hb)
  rw [read_write _ m (by rw [hp1.length_eq]; exact hl) (fun b hb => by
    have := hpos b hb; have := hfi b hb; omega)] at hrun
  cases hrun
  obtain ⟨g0, e0⟩ := Lease.good_new m
  obtain ⟨g2, hp2⟩ := freeAll_perm (s.lease.defrag.all.filter (·.offset ≠ 0)) (Lease.new m) g0
    (by rw [e0, List.append_nil]; exact hap.filter _)
    (by rw [e0, List.append_nil]; intro b hb; exact (hpos b (List.mem_of_mem_filter hb)).1)
  rw [e0, List.append_nil] at hp2
  have hsub : (usedOf L g.freed ++ s.lease.defrag.all.filter (·.offset ≠ 0)).Sublist (usedOf L g.freed ++ s.lease.defrag.all) :=
    List.filter_sublist.append_left _
  refine ⟨L, ⟨hS.file, ⟨by simp, g2, ⟨?_, ?_, g2.size⟩, ?_, hS.data.bytes⟩, hS.loc, hS.sub⟩, hL, hOK, hlen⟩
  · rw [Lease.pairwise_perm (hp2.append_left _)]
    exact ((Lease.pairwise_perm (hp1.append_left _)).2 hS.data.sound.apart).sublist hsub
  · intro b hb
    have := hsub.subset ((hp2.append_left _).subset hb)
    exact hS.data.sound.pos b ((hp1.append_left _).subset this)
  · intro b hb
    exact hfi b (List.mem_of_mem_filter (hp2.subset hb))

/-- A sync that stops, after rounds that took nothing from the free list. -/
theorem Placed.stop {s s1 s' : Store} {g : Spec.Ledger} (h : Placed s g) {order : List FB → List FB} (ho : ∀ l, (order l).Perm l) {rounds : List (List Rec)} {part : List Rec}
    (hst : ∀ rs ∈ rounds, ∀ r ∈ rs, Spec.Storable r) (hp : ∀ r ∈ part, r.cache.length < 2 ^ 32) (h1 : syncAll s rounds = some s1) (hsize : s1.lease.size = s.lease.size)
    (hlen : s1.data.length < 2 ^ 63) (hrun : syncStopped order s rounds part = some s') : Placed s' ⟨Spec.firsts g.stored rounds.flatten, g.freed⟩ := by
  obtain ⟨L, hS, hL, hOK, _⟩ := h
  have hok : ∀ rs ∈ rounds, ∀ r ∈ rs, r.OK := fun rs hrs r hr => (hst rs hrs r hr).ok
  obtain ⟨w, n1, n2, n3⟩ := newBlockWriter_spec hS
  simp only [syncStopped, n1, Option.bind_eq_bind, Option.bind_some, Option.bind_eq_some_iff] at hrun
  obtain ⟨⟨t1, w1, notes⟩, e1, ⟨t2, w2, notes2⟩, e2, e3⟩ := hrun
  obtain ⟨u1, v1, L', g1, g2, g3, g4, g5, _⟩ := rounds_spec rounds hok n2 n3 hS.file
  have f := roundsNoting_fst rounds e1
  rw [g1] at f
  simp only [Option.some.injEq, Prod.mk.injEq] at f
  obtain ⟨rfl, rfl⟩ := f
  simp only [syncAll, n1, Option.bind_eq_bind, Option.bind_some, g1] at h1
  cases h1
  have hn := (roundsNoting_size rounds hok n2 e1).2 hsize
  simp only at hn
  subst hn
  have hd := g2.data
  have held : Held s1 (L ++ L') g.freed [] s1.index s1.data.length s1.lease.size := by
    refine ⟨rfl, rfl, hd.good, hd.sound, by simp [Lease.total], hd.freeIn, fun p hp hpf => ?_⟩
    have := hd.bytes p hp hpf
    rw [g3, List.append_nil] at this
    exact this
  have held2 := held.appendNoting part hp e2
  obtain ⟨a, b⟩ := stored_after hL hOK g4 hst
  cases e3
  refine ⟨L ++ L', (held2.aborted g5 g2.loc g2.sub (ho _)).1, a, b, ?_⟩
  have := held2.long
  simp only at this
  simp only [← this, truncate_self]
  rw [this]; exact hlen

theorem Placed.readable {s : Store} {g : Spec.Ledger} (h : Placed s g)
    (r : Rec) (hr : r ∈ g.stored) (hf : r.seq ∉ g.freed) (id topic payload : Bytes) (hid : id.length = 9)
    (ht : topic.length = r.topicSize.toNat) (hc : r.cache = id ++ topic ++ payload) :
    ∃ e, readEntry s.index r.seq = .ok e ∧ e.topicSize = r.topicSize ∧ e.valueSize = r.valueSize ∧
      readMessage s.data e = some (id, payload) ∧ readTopic s.data e = some topic := by
  obtain ⟨L, hS, hL, hOK, hlen⟩ := h
  have hst := hOK r hr
  rw [← hL, List.mem_map] at hr
  obtain ⟨p, hp, rfl⟩ := hr
  have hb := hS.data.bytes p hp hf
  simp only [List.append_nil] at hb
  have hle := slice?_le hb
  have hsz := hst.sized
  have htl := hst.topic
  have hsm := hst.small
  have e1 : (Int64.ofInt (p.2 : Int)).toInt = p.2 := Int64.toInt_ofInt_of_le (by omega) (by omega)
  have e2 := mSize_eq hst p.2
  have e3 : (p.1.topicSize + 9).toNat = p.1.topicSize.toNat + 9 := by
    rw [UInt16.toNat_add]
    have : UInt16.toNat 9 = 9 := rfl
    omega
  refine ⟨toEntry p, hS.readEntry hp (by omega), rfl, rfl, ?_, ?_⟩
  · have e4 : readAt s.data (toEntry p).msgOffset.toInt (toEntry p).mSize.toNat = some p.1.cache := by
      rw [show toEntry p = toEntry (p.1, p.2) from rfl, e2]
      simp only [toEntry, e1, readAt]
      rw [if_pos (by omega)]
      exact hb
    have e5 : slice? p.1.cache 0 9 = some id := by
      rw [hc, List.append_assoc]; exact slice?_append_left _ _ _ hid.symm
    have e6 : slice? p.1.cache (p.1.topicSize + 9).toNat p.1.cache.length = some payload := by
      rw [e3, hc]
      have := slice?_mid (id ++ topic) payload [] (p.1.topicSize.toNat + 9) (id ++ topic ++ payload).length
        (by simp; omega) (by simp; omega)
      rw [List.append_nil] at this
      exact this
    simp only [readMessage, e4, Option.bind_eq_bind, Option.bind_some, e5]
    rw [show (toEntry p).topicSize = p.1.topicSize from rfl, e6]
    rfl
  · simp only [readTopic, toEntry, e1, readAt]
    rw [if_pos (by omega)]
    have e7 : ((p.2 : Int) + 9).toNat = p.2 + 9 := by omega
    rw [e7, Nat.add_assoc, slice?_slice? hb (by omega), hc]
    exact slice?_mid id topic payload _ _ hid.symm (by rw [ht, hid])

/-- The histories of C28, with syncs that stop: the sync gets through the time blocks `rounds`, which take nothing from the free list, and stops after appending `part` of the next. `order` is the order
in which the map of the noted space is visited. -/
inductive Spec.Troubled (m : Int) : Store → Spec.Ledger → Prop
  | init : Troubled m ⟨[], [], Lease.new m⟩ ⟨[], []⟩
  | sync {s g} (rounds s') : Troubled m s g → (∀ rs ∈ rounds, ∀ r ∈ rs, Spec.Storable r) → syncAll s rounds = some s' → s'.data.length < 2 ^ 63 →
      Troubled m s' ⟨Spec.firsts g.stored rounds.flatten, g.freed⟩
  | stop {s g} (order : List FB → List FB) (rounds part s1 s') : Troubled m s g → (∀ l, (order l).Perm l) → (∀ rs ∈ rounds, ∀ r ∈ rs, Spec.Storable r) → (∀ r ∈ part, Spec.Storable r) →
      syncAll s rounds = some s1 → s1.lease.size = s.lease.size → s1.data.length < 2 ^ 63 → syncStopped order s rounds part = some s' →
      Troubled m s' ⟨Spec.firsts g.stored rounds.flatten, g.freed⟩
  | expire {s g} (q s') : Troubled m s g → (∃ r ∈ g.stored, r.seq = q) → q ∉ g.freed → expireOne s q = some s' → Troubled m s' ⟨g.stored, q :: g.freed⟩
  | reopen {s g} (l') : Troubled m s g → Spec.noNeighbours s.lease → s.lease.all.length < 357913941 → (Lease.new m).read s.lease.defrag.write = some l' →
      Troubled m { s with lease := l' } g

theorem troubled_placed {m : Int} {s : Store} {g : Spec.Ledger} (h : Spec.Troubled m s g) : Placed s g := by
  induction h with
  | init => exact history_inv (.init (m := m))
  | sync rounds s' _ h1 h2 h3 ih => exact ih.sync h1 h2 h3
  | stop order rounds part s1 s' _ h1 h2 h3 h4 h5 h6 h7 ih => exact ih.stop h1 h2 (fun r hr => (h3 r hr).small) h4 h5 h6 h7
  | expire q s' _ h1 h2 h3 ih => exact ih.expire h1 h2 h3
  | reopen l' _ h1 h2 h3 ih => exact ih.reopen h1 h2 h3

/-- C103 (partial: the time blocks a stopped sync got through took nothing from the free list; otherwise see `C103_freed_violated`. Limits as in `C28_synced_readable_partial`). However often syncs stop, before and after
complete ones, every record of a completed time block whose space was not given back reads back byte for byte. -/
theorem C103_kept_partial (m : Int) (s : Store) (g : Spec.Ledger) (h : Spec.Troubled m s g) (r : Rec) (hr : r ∈ g.stored) (hf : r.seq ∉ g.freed) (id topic payload : Bytes) (hid : id.length = 9)
    (ht : topic.length = r.topicSize.toNat) (hc : r.cache = id ++ topic ++ payload) :
    ∃ e, readEntry s.index r.seq = .ok e ∧ e.topicSize = r.topicSize ∧ e.valueSize = r.valueSize ∧ readMessage s.data e = some (id, payload) ∧ readTopic s.data e = some topic :=
  (troubled_placed h).readable r hr hf id topic payload hid ht hc

/-- C103 (partial, as above): after syncs that stopped, the next sync of storable records does not fail, and stores them. -/
theorem C103_again_partial (m : Int) (s : Store) (g : Spec.Ledger) (h : Spec.Troubled m s g) (rounds : List (List Rec)) (hr : ∀ rs ∈ rounds, ∀ r ∈ rs, Spec.Storable r) :
    ∃ s', syncAll s rounds = some s' ∧ (s'.data.length < 2 ^ 63 → Spec.Troubled m s' ⟨Spec.firsts g.stored rounds.flatten, g.freed⟩) := by
  obtain ⟨L, hS, _⟩ := troubled_placed h
  obtain ⟨s', _, h1, _⟩ := syncAll_spec hS rounds (fun rs hrs r hr' => (hr rs hrs r hr').ok)
  exact ⟨s', h1, fun hl => .sync rounds s' h hr h1 hl⟩

/-- C103 (partial, as above): a sync that stops in its first time block leaves the index as it was, the data file as long as it was, and as many bytes free as before. -/
theorem C103_free_partial (m : Int) (s s' : Store) (g : Spec.Ledger) (h : Spec.Troubled m s g) (order : List FB → List FB) (ho : ∀ l, (order l).Perm l) (part : List Rec)
    (hp : ∀ r ∈ part, Spec.Storable r) (hrun : syncStopped order s [] part = some s') :
    s'.index = s.index ∧ s'.data.length = s.data.length ∧ Lease.total s'.lease.all = Lease.total s.lease.all := by
  obtain ⟨L, hS, _⟩ := troubled_placed h
  obtain ⟨w, n1, n2, n3⟩ := newBlockWriter_spec hS
  simp only [syncStopped, n1, Option.bind_eq_bind, Option.bind_some, Option.bind_eq_some_iff] at hrun
  obtain ⟨⟨t1, w1, notes⟩, e1, ⟨t2, w2, notes2⟩, e2, e3⟩ := hrun
  cases e1
  have hd := hS.data
  have held : Held s L g.freed [] s.index s.data.length s.lease.size := by
    refine ⟨rfl, rfl, hd.good, hd.sound, by simp [Lease.total], hd.freeIn, fun p hp hpf => ?_⟩
    have := hd.bytes p hp hpf
    rw [List.append_nil] at this
    exact this
  have held2 := held.appendNoting part (fun r hr => (hp r hr).small) e2
  obtain ⟨a, b⟩ := held2.aborted hS.file hS.loc hS.sub (ho _)
  cases e3
  refine ⟨?_, ?_, ?_⟩
  · have := held2.idx
    simp only at this
    simp only [this, truncate_self]
  · have := held2.long
    simp only at this
    simp only [← this, truncate_self]
  · rw [← a.data.good.size, ← hd.good.size]; exact b

/-- A history with an expiry, a sync that stops after having written to the freed space, and one that uses it: the hypotheses of the theorems above hold of it. -/
example : ∃ s g, Spec.Troubled 0 s g ∧ g.stored = [sample 1 1, sample 4 4, sample 2 2] ∧ g.freed = [1] ∧ s.data.length = 30 := by
  have h0 : Spec.Troubled 0 ⟨[], [], Lease.new 0⟩ ⟨[], []⟩ := .init
  have st : ∀ (q : UInt64) (x : UInt8), 1 ≤ q.toNat → q.toNat ≤ 255 * 524287 → ∀ r ∈ [sample q x], Spec.Storable r := by
    intro q x h1 h2 r hr
    simp only [List.mem_singleton] at hr
    subst hr
    exact sample_storable _ _ h1 h2
  have e : ((syncAll ⟨[], [], Lease.new 0⟩ [[sample 1 1], [sample 4 4]]).bind fun a => (expireOne a 1).bind fun b => (syncStopped List.reverse b [] [sample 3 3]).bind fun c =>
      (syncAll c [[sample 2 2]]).map fun d => (a.data.length, b.data.length, c.data.length, d.data.length, decide (b.data = c.data))) = some (30, 30, 30, 30, false) := by decide +kernel
  simp only [Option.bind_eq_some_iff, Option.map_eq_some_iff] at e
  obtain ⟨a, ea, b, eb, c, ec, d, ed, e⟩ := e
  simp only [Prod.mk.injEq] at e
  have h1 := Spec.Troubled.sync _ a h0 (by
    intro rs hrs
    simp only [List.mem_cons, List.not_mem_nil, or_false] at hrs
    rcases hrs with rfl | rfl <;> exact st _ _ (by decide) (by decide)) ea (by omega)
  have h2 := Spec.Troubled.expire 1 b h1 ⟨sample 1 1, by decide, rfl⟩ (by simp) eb
  have h3 := Spec.Troubled.stop List.reverse [] [sample 3 3] b c h2 (fun l => List.reverse_perm l) (by simp) (st _ _ (by decide) (by decide)) (by
    obtain ⟨s', h1, _⟩ := C103_again_partial 0 b _ h2 [] (by simp)
    rw [h1]
    simp only [syncAll, Option.bind_eq_bind, Option.bind_eq_some_iff] at h1
    obtain ⟨w, _, x, hx, h3⟩ := h1
    cases hx
    cases h3
    rfl) rfl (by omega) ec
  have h4 := Spec.Troubled.sync _ d h3 (by
    intro rs hrs
    simp only [List.mem_singleton] at hrs
    subst hrs
    exact st _ _ (by decide) (by decide)) ed (by omega)
  exact ⟨d, _, h4, by decide +kernel, rfl, by omega⟩

/-- C103 is false. A message expires and its space is used in the first time block of a sync, which stops in the second. The space is given back although the message of the first block is on disk; the next sync writes
another message over it, and reading the first returns the payload of the other. -/
theorem C103_freed_violated : (do
    let s ← syncAll ⟨[], [], Lease.new 0⟩ [[sample 1 1]]
    let s ← expireOne s 1
    let s ← syncStopped id s [[sample 2 2]] [sample 3 3]
    let e2 ← (readEntry s.index 2).toOption
    let s' ← syncAll s [[sample 3 3]]
    let e2' ← (readEntry s'.index 2).toOption
    let e3 ← (readEntry s'.index 3).toOption
    pure (readMessage s.data e2, readMessage s'.data e2', e2'.msgOffset, e3.msgOffset)) =
    some (some ([2, 2, 3, 4, 5, 6, 7, 8, 9], [2, 2, 2, 2, 2]), some ([3, 2, 3, 4, 5, 6, 7, 8, 9], [3, 3, 3, 3, 3]), 0, 0) := by
  decide +kernel

end Verif
