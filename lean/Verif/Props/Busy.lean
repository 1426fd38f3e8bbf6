import Verif.Props.Rollback
import Mathlib.Logic.Relation

/-!
# C104: reading while a sync runs

A Get reads the index entry of a message and then, from the data file, its bytes (db.go:265-277). It holds no lock that a Sync or the expiry takes: Syncs and expiries exclude each other
(db.go:459-463, db_sync.go:307-310), but either can happen between the two reads.
-/

namespace Verif

/-- The files and the writer of the running sync, if any. For the statements: the records on disk, those appended since the last write, and those whose space was given back. -/
structure Busy where
  s : Store
  w : Option Writer
  stored : List Rec
  pending : List Rec
  freed : List UInt64

/-- What happens between two reads: a sync starts (db_sync.go:50-73), appends a record (225-263), writes a time block (175-207), and ends; an entry expires (306-330) while no sync runs. The writes of one time block
are one step; block_writer.go:183-258 writes the data before the index. -/
inductive Spec.Step : Busy → Busy → Prop
  | start {b : Busy} {w : Writer} : b.w = none → newBlockWriter b.s = some w → Step b { b with w := some w }
  | append {b : Busy} {w : Writer} {r : Rec} {s' : Store} {w' : Writer} : b.w = some w → Spec.Storable r → w.append b.s r = .ok (s', w') →
      Step b { b with s := s', w := some w', pending := b.pending ++ [r] }
  | write {b : Busy} {w : Writer} {upper : UInt64} {s' : Store} {w' : Writer} : b.w = some w → upper.toNat ≤ 255 * 524287 →
      w.write { b.s with index := extendIndex b.s.index upper } = some (s', w') → s'.data.length < 2 ^ 63 →
      Step b { b with s := s', w := some (w'.reset s'), stored := b.stored ++ b.pending, pending := [] }
  | finish {b : Busy} {w : Writer} : b.w = some w → b.pending = [] → Step b { b with w := none }
  | expire {b : Busy} {q : UInt64} {s' : Store} : b.w = none → (∃ r ∈ b.stored, r.seq = q) → q ∉ b.freed → expireOne b.s q = some s' →
      Step b { b with s := s', freed := q :: b.freed }

/-- Everything that can happen later. -/
def Spec.Later : Busy → Busy → Prop := Relation.ReflTransGen Spec.Step

/-- A database never written to. -/
def Busy.fresh (m : Int) : Busy := ⟨⟨[], [], Lease.new m⟩, none, [], [], []⟩

/-- `K` places what is on disk, `P` what was appended since. -/
structure BInv (b : Busy) (K P : Loc) : Prop where
  stored : K.map (·.1) = b.stored
  pending : P.map (·.1) = b.pending
  none : b.w = none → P = []
  disk : SInv b.s K b.freed
  sync : ∀ w, b.w = some w → EInv b.s w (K ++ P) b.freed
  ok : ∀ r ∈ b.stored ++ b.pending, Spec.Storable r
  long : b.s.data.length < 2 ^ 63

theorem dataInv_disk {s : Store} {w : Writer} {K P : Loc} {freed : List UInt64} (h : DataInv s w (K ++ P) freed)
    (hb : ∀ p ∈ K, p.1.seq ∉ freed → slice? s.data p.2 (p.2 + p.1.cache.length) = some p.1.cache) : DataInv s ⟨0, [], [], s.data.length⟩ K freed := by
  have hsub : (usedOf K freed ++ s.lease.all).Sublist (usedOf (K ++ P) freed ++ s.lease.all) := by
    refine List.Sublist.append_right ?_ _
    simp only [usedOf, List.filter_append, List.map_append]
    exact List.sublist_append_left _ _
  refine ⟨by simp, h.good, ⟨h.sound.apart.sublist hsub, fun b hb => h.sound.pos b (hsub.subset hb), h.good.size⟩, h.freeIn, fun p hp hpf => ?_⟩
  simp only [List.append_nil]
  exact hb p hp hpf

/-- Appending a record leaves the bytes of the stored ones as they are. -/
theorem append_disk {s s' : Store} {w w' : Writer} {K P : Loc} {freed : List UInt64} (h : DataInv s w (K ++ P) freed) {r : Rec} (hc2 : r.cache.length < 2 ^ 32)
    (hb : ∀ p ∈ K, p.1.seq ∉ freed → slice? s.data p.2 (p.2 + p.1.cache.length) = some p.1.cache) (ha : w.append s r = .ok (s', w')) :
    s'.index = s.index ∧ s'.data.length = s.data.length ∧ ∀ p ∈ K, p.1.seq ∉ freed → slice? s'.data p.2 (p.2 + p.1.cache.length) = some p.1.cache := by
  have hd := dataInv_disk h hb
  have held : Held s K freed [] s.index s.data.length s.lease.size := ⟨rfl, rfl, hd.good, hd.sound, by simp [Lease.total], hd.freeIn, hb⟩
  have := held.append hc2 ha
  exact ⟨this.idx, this.long, this.bytes⟩

theorem bInv_step {b b' : Busy} {K P : Loc} (h : BInv b K P) (hs : Spec.Step b b') : ∃ K' P', BInv b' K' P' ∧ (∀ p ∈ K, p ∈ K') ∧ (∀ q ∈ b.freed, q ∈ b'.freed) := by
  cases hs with
  | @start w h1 h2 =>
    obtain ⟨w', g1, g2, _⟩ := newBlockWriter_spec h.disk
    rw [h2] at g1
    cases g1
    have hP := h.none h1
    subst hP
    refine ⟨K, [], ⟨h.stored, h.pending, by simp, h.disk, ?_, h.ok, h.long⟩, fun _ hp => hp, fun _ hq => hq⟩
    intro w1 hw
    cases hw
    simpa using g2
  | @append w r s' w' h1 h2 h3 =>
    have hE := h.sync w h1
    have hm : r.seq ∉ (K ++ P).map (·.1.seq) := by
      intro hm
      rw [append_exist hE h2.ok hm] at h3
      cases h3
    obtain ⟨off, s1, w1, g1, g2, _⟩ := append_new hE h2.ok hm
    rw [h3] at g1
    simp only [Except.ok.injEq, Prod.mk.injEq] at g1
    obtain ⟨rfl, rfl⟩ := g1
    have hb : ∀ p ∈ K, p.1.seq ∉ b.freed → slice? b.s.data p.2 (p.2 + p.1.cache.length) = some p.1.cache := fun p hp hpf => by
      have := h.disk.data.bytes p hp hpf
      rw [List.append_nil] at this
      exact this
    obtain ⟨e1, e2, e3⟩ := append_disk hE.data h2.small hb h3
    rw [List.append_assoc] at g2
    refine ⟨K, P ++ [(r, off)], ⟨h.stored, by simp [h.pending], by simp, ?_, ?_, ?_, by simp only; rw [e2]; exact h.long⟩, fun _ hp => hp, fun _ hq => hq⟩
    · obtain ⟨n, f⟩ := h.disk.file
      exact ⟨⟨n, by rw [e1]; exact f⟩, dataInv_disk g2.data e3, h.disk.loc, h.disk.sub⟩
    · intro w2 hw
      cases hw
      exact g2
    · intro x hx
      simp only [← List.append_assoc, List.mem_append, List.mem_singleton] at hx
      rcases hx with hx | rfl
      · exact h.ok x (List.mem_append.2 hx)
      · exact h2
  | @write w upper s' w' h1 h2 h3 h4 =>
    have hE := h.sync w h1
    obtain ⟨n, B, hI⟩ := hE.idx
    obtain ⟨n1, hn1, f1⟩ := extendIndex_spec hI.file upper h2
    have hC : IdxCore (extendIndex b.s.index upper) w (K ++ P) n1 B := ⟨f1, hI.keys, hI.kept, hI.other⟩
    obtain ⟨s2, w2, n2, h5, h6, h7, h8, h9, h10, _⟩ := write_spec (s := { b.s with index := extendIndex b.s.index upper }) hE.loc hC
    rw [h3] at h5
    cases h5
    simp only at h6 h7
    have hd := hE.data
    have hD : ∀ bi bl, DataInv s' ⟨bi, bl, [], s'.data.length⟩ (K ++ P) b.freed := by
      intro bi bl
      refine ⟨by simp, ?_, ?_, ?_, ?_⟩
      · rw [h7]; exact hd.good
      · rw [h7]; exact hd.sound
      · rw [h7, h6]; intro b hb
        have := hd.freeIn b hb
        simp only [List.length_append]; omega
      · intro p hp hpf
        rw [List.append_nil, h6]
        exact hd.bytes p hp hpf
    refine ⟨K ++ P, [], ⟨by simp [h.stored, h.pending], rfl, fun _ => rfl, ⟨⟨n2, h10.file⟩, hD _ _, hE.loc, hE.sub⟩, ?_, by simpa using h.ok, h4⟩,
      fun _ hp => List.mem_append_left _ hp, fun _ hq => hq⟩
    intro w3 hw
    cases hw
    rw [List.append_nil]
    refine ⟨⟨n2, _, h10⟩, ?_, hE.loc, hE.sub⟩
    have := hD 0 []
    refine ⟨?_, this.good, this.sound, this.freeIn, this.bytes⟩
    show w'.offset = s'.data.length + 0
    rw [h8, h6, hd.off]; simp
  | @finish w h1 h2 =>
    have hP : P = [] := by
      have := h.pending
      rw [h2] at this
      exact List.map_eq_nil_iff.1 this
    exact ⟨K, P, ⟨h.stored, h.pending, fun _ => hP, h.disk, by simp, h.ok, h.long⟩, fun _ hp => hp, fun _ hq => hq⟩
  | @expire q s' h1 h2 h3 h4 =>
    have hP := h.none h1
    subst hP
    obtain ⟨hS, _, _, hl⟩ := expire_placed (g := ⟨b.stored, b.freed⟩) h.disk h.stored (fun r hr => h.ok r (List.mem_append_left _ hr)) h.long h2 h3 h4
    refine ⟨K, [], ⟨h.stored, h.pending, fun _ => rfl, hS, ?_, h.ok, hl⟩, fun _ hp => hp, fun _ hq => List.mem_cons_of_mem _ hq⟩
    intro w hw
    rw [h1] at hw
    cases hw

theorem bInv_later {b b' : Busy} {K P : Loc} (h : BInv b K P) (hs : Spec.Later b b') : ∃ K' P', BInv b' K' P' ∧ (∀ p ∈ K, p ∈ K') ∧ (∀ q ∈ b.freed, q ∈ b'.freed) := by
  induction hs with
  | refl => exact ⟨K, P, h, fun _ hp => hp, fun _ hq => hq⟩
  | tail _ hs ih =>
    obtain ⟨K1, P1, h1, h2, h3⟩ := ih
    obtain ⟨K2, P2, g1, g2, g3⟩ := bInv_step h1 hs
    exact ⟨K2, P2, g1, fun p hp => g2 p (h2 p hp), fun q hq => g3 q (h3 q hq)⟩

theorem bInv_fresh (m : Int) : BInv (.fresh m) [] [] := by
  obtain ⟨L, hS, hL, _⟩ := history_inv (Spec.History.init (m := m))
  have : L = [] := List.map_eq_nil_iff.1 hL
  subst this
  exact ⟨rfl, rfl, fun _ => rfl, hS, by simp [Busy.fresh], by simp [Busy.fresh], by simp [Busy.fresh]⟩

/-- C104 (partial: the message does not expire in between; otherwise see `C104_expired_violated`. Limits as in `C28_synced_readable_partial`). At every moment of every history the index entry of a message on disk
is found, and whatever syncs do until the data file is read, in whatever state of theirs, the bytes read with that entry are those of the message. -/
theorem C104_reads_partial (m : Int) (b : Busy) (hb : Spec.Later (.fresh m) b) (r : Rec) (hr : r ∈ b.stored) (hf : r.seq ∉ b.freed) (id topic payload : Bytes) (hid : id.length = 9)
    (ht : topic.length = r.topicSize.toNat) (hc : r.cache = id ++ topic ++ payload) :
    ∃ e, readEntry b.s.index r.seq = .ok e ∧ ∀ b', Spec.Later b b' → r.seq ∉ b'.freed → readMessage b'.s.data e = some (id, payload) ∧ readTopic b'.s.data e = some topic := by
  obtain ⟨K, P, h, _⟩ := bInv_later (bInv_fresh m) hb
  rw [← h.stored, List.mem_map] at hr
  obtain ⟨p, hp, rfl⟩ := hr
  have small : ∀ {b' : Busy} {K' P' : Loc}, BInv b' K' P' → p ∈ K' → p.1.seq ∉ b'.freed → p.2 < 2 ^ 63 := fun h' hp' hf' => by
    have := (slice?_le (h'.disk.data.bytes p hp' hf')).2
    have := h'.long
    simp only [List.append_nil] at *
    omega
  refine ⟨toEntry p, h.disk.readEntry hp (small h hp hf), fun b' hb' hf' => ?_⟩
  obtain ⟨K', P', h', hk, _⟩ := bInv_later h hb'
  have hp' := hk p hp
  have hm : p.1 ∈ b'.stored := by rw [← h'.stored]; exact List.mem_map.2 ⟨p, hp', rfl⟩
  have hpl : Placed b'.s ⟨b'.stored, b'.freed⟩ := ⟨K', h'.disk, h'.stored, fun r hr => h'.ok r (List.mem_append_left _ hr), h'.long⟩
  obtain ⟨e, e1, _, _, e2, e3⟩ := hpl.readable p.1 hm hf' id topic payload hid ht hc
  rw [h'.disk.readEntry hp' (small h' hp' hf')] at e1
  cases e1
  exact ⟨e2, e3⟩

/-- A sync that has written one record and appended another, which is in the freed space of a third, is such a moment. -/
example : ∃ b, Spec.Later (.fresh 0) b ∧ sample 2 2 ∈ b.stored ∧ b.pending = [sample 3 3] ∧ b.freed = [1] := by
  have e : ((newBlockWriter ⟨[], [], Lease.new 0⟩).bind fun w0 => (w0.append ⟨[], [], Lease.new 0⟩ (sample 1 1)).toOption.bind fun x1 => (x1.2.append x1.1 (sample 2 2)).toOption.bind fun x2 =>
      (x2.2.write { x2.1 with index := extendIndex x2.1.index 2 }).bind fun x3 => (expireOne x3.1 1).bind fun s4 => (newBlockWriter s4).bind fun w5 => (w5.append s4 (sample 3 3)).toOption.map fun x6 =>
      (x3.1.data.length, x6.1.data.length)) = some (30, 30) := by decide +kernel
  simp only [Option.bind_eq_some_iff, Option.map_eq_some_iff] at e
  obtain ⟨w0, e0, x1, e1, x2, e2, x3, e3, s4, e4, w5, e5, x6, e6, e⟩ := e
  have ok : ∀ {x : Except AppendErr (Store × Writer)} {y : Store × Writer}, x.toOption = some y → x = .ok (y.1, y.2) := fun {x y} h => by
    cases x with
    | error => cases h
    | ok z => cases h; rfl
  simp only [Prod.mk.injEq] at e
  have st := fun (q : UInt64) (x : UInt8) => sample_storable q x
  refine ⟨_, (((((((Relation.ReflTransGen.refl.tail (.start rfl e0)).tail (.append rfl (st 1 1 (by decide) (by decide)) (ok e1))).tail (.append rfl (st 2 2 (by decide) (by decide)) (ok e2))).tail
    (.write (upper := 2) rfl (by decide) e3 (by omega))).tail (.finish rfl rfl)).tail (.expire (q := 1) rfl ⟨sample 1 1, by simp [Busy.fresh], rfl⟩ (by simp [Busy.fresh]) e4)).tail (.start rfl e5)).tail
    (.append rfl (st 3 3 (by decide) (by decide)) (ok e6)), by simp [Busy.fresh], rfl, rfl⟩

/-- C104 is false for a message that expires in between: its index entry is read, it expires, a sync uses its space, and the bytes read with the entry are those of another message. -/
theorem C104_expired_violated : (do
    let s ← syncAll ⟨[], [], Lease.new 0⟩ [[sample 1 1]]
    let e ← (readEntry s.index 1).toOption
    let s' ← expireOne s 1
    let s' ← syncAll s' [[sample 2 2]]
    pure (readMessage s.data e, readMessage s'.data e)) = some (some ([1, 2, 3, 4, 5, 6, 7, 8, 9], [1, 1, 1, 1, 1]), some ([2, 2, 3, 4, 5, 6, 7, 8, 9], [2, 2, 2, 2, 2])) := by
  decide +kernel

end Verif
