import Verif.Model.Db
import Verif.Props.Codec
import Verif.Props.Message

/-!
# Lemmas about records
-/

namespace Verif

theorem patch_zeros (a d : Bytes) (n : Nat) :
    patch (a ++ List.replicate (d.length + n) 0) a.length d = a ++ d ++ List.replicate n 0 := by
  simp only [patch, List.take_left', List.drop_append, Nat.add_sub_cancel_left]
  rw [List.drop_eq_nil_of_le (by omega), List.drop_replicate]
  simp

theorem goCopy_zeros (a d : Bytes) (n : Nat) :
    goCopy (a ++ List.replicate (d.length + n) 0) a.length d = a ++ d ++ List.replicate n 0 := by
  simp only [goCopy]
  rw [List.take_of_length_le (by simp), patch_zeros]

/-- The packed record when every size fits its field. -/
theorem packRecord_eq (h : EntryHdr) (id : Bytes) (flag : UInt8) (raw val : Bytes) (hid : id.length = 8)
    (hraw : h.topicSize.toNat = raw.length) (hval : h.valueSize.toNat = val.length) (hfit : 35 + raw.length + val.length < 2 ^ 32) :
    packRecord h id flag raw val = h.marshal ++ (id ++ [flag] ++ raw ++ val) := by
  have hm : (26 + 9 + h.topicSize.toUInt32 + h.valueSize).toNat = 26 + (8 + (1 + (raw.length + (val.length + 0)))) := by
    simp only [UInt32.toNat_add, UInt16.toNat_toUInt32, hraw, hval, UInt32.toNat_ofNat]
    omega
  have hl : h.marshal.length = 26 := h.length_marshal
  have s1 : goCopy (List.replicate (26 + (8 + (1 + (raw.length + (val.length + 0))))) 0) 0 h.marshal =
      h.marshal ++ List.replicate (8 + (1 + (raw.length + (val.length + 0)))) 0 := by
    have := goCopy_zeros [] h.marshal (8 + (1 + (raw.length + (val.length + 0))))
    simpa [hl] using this
  have s2 : goCopy (h.marshal ++ List.replicate (8 + (1 + (raw.length + (val.length + 0)))) 0) 26 id =
      (h.marshal ++ id) ++ List.replicate (1 + (raw.length + (val.length + 0))) 0 := by
    have := goCopy_zeros h.marshal id (1 + (raw.length + (val.length + 0)))
    rwa [hl, hid] at this
  have s3 : patch ((h.marshal ++ id) ++ List.replicate (1 + (raw.length + (val.length + 0))) 0) 34 [flag] =
      (h.marshal ++ id ++ [flag]) ++ List.replicate (raw.length + (val.length + 0)) 0 := by
    have := patch_zeros (h.marshal ++ id) [flag] (raw.length + (val.length + 0))
    rwa [List.length_append, hl, hid] at this
  have s4 : (if h.topicSize ≠ 0 then goCopy ((h.marshal ++ id ++ [flag]) ++ List.replicate (raw.length + (val.length + 0)) 0) 35 raw
      else (h.marshal ++ id ++ [flag]) ++ List.replicate (raw.length + (val.length + 0)) 0) =
      (h.marshal ++ id ++ [flag] ++ raw) ++ List.replicate (val.length + 0) 0 := by
    split
    · have := goCopy_zeros (h.marshal ++ id ++ [flag]) raw (val.length + 0)
      rwa [List.length_append, List.length_append, hl, hid] at this
    · next h0 =>
      have h0 : h.topicSize = 0 := by simpa using h0
      rw [h0] at hraw
      have : raw = [] := List.length_eq_zero_iff.mp (by simpa using hraw.symm)
      simp [this]
  have s5 := goCopy_zeros (h.marshal ++ id ++ [flag] ++ raw) val 0
  have h5 : (h.marshal ++ id ++ [flag] ++ raw).length = 35 + h.topicSize.toNat := by
    simp [hl, hid, hraw]; omega
  rw [h5] at s5
  simp only [packRecord, hm, s1, s2, s3, s4, s5]
  simp

/-- The two parts of a record body. -/
theorem splitMessage_eq (id raw val : Bytes) (flag : UInt8) (ts : UInt16) (hid : id.length = 8) (hraw : ts.toNat = raw.length) (hfit : raw.length + 9 < 65536) :
    splitMessage (id ++ [flag] ++ raw ++ val) ts = .ok (id ++ [flag]) val := by
  have h1 : slice? (id ++ [flag] ++ raw ++ val) 0 9 = some (id ++ [flag]) := by
    rw [List.append_assoc (id ++ [flag])]
    exact slice?_mid [] (id ++ [flag]) (raw ++ val) 0 9 rfl (by simp [hid])
  have h2 : slice? (id ++ [flag] ++ raw ++ val) (ts + 9).toNat (id ++ [flag] ++ raw ++ val).length = some val := by
    have e : (ts + 9).toNat = (id ++ [flag] ++ raw).length := by
      simp only [UInt16.toNat_add, hraw, List.length_append, hid, List.length_singleton, UInt16.toNat_ofNat]
      omega
    have := slice?_mid (id ++ [flag] ++ raw) val [] (ts + 9).toNat (id ++ [flag] ++ raw ++ val).length e (by simp; omega)
    simpa using this
  simp only [splitMessage, h1, h2]

theorem length_setContract (id : Bytes) (c : UInt32) (h : id.length = 16) : (setContract id c).length = 16 := by
  simp [setContract, patch, h]

/-- The eight bytes of an id that are stored. -/
theorem idPrefix_some (id : Bytes) (c : UInt32) (h : id.length = 16) : ∃ p, idPrefix (setContract id c) = some p ∧ p.length = 8 := by
  refine ⟨(setContract id c).take 8, ?_, ?_⟩
  · simp [idPrefix, slice?, length_setContract id c h]
  · simp [length_setContract id c h]

theorem idSequence_newID (now : Int) (q : UInt64) : idSequence (newID now q) = some q := by simp [idSequence, newID, get64_skip]

/-- What drawing an id changes: the sequence only. -/
theorem Db.drawId_some {now : Int} {s s' : Db} {o : Obj} {q : UInt64} {id : Bytes} (h : s.drawId now o = some (s', q, id)) :
    (∃ n, s' = { s with seq := n }) ∧ idSequence id = some q ∧
    (o.id = some id ∧ s' = s ∨ o.id = none ∧ s' = { s with seq := s.seq + 1 } ∧ q = s.seq + 1 ∧ id = newID (unixSec now) (s.seq + 1)) := by
  simp only [Db.drawId] at h
  split at h
  · next id' hid =>
    simp only [Option.map_eq_some_iff, Prod.mk.injEq] at h
    obtain ⟨q', hq, rfl, rfl, rfl⟩ := h
    exact ⟨⟨s.seq, rfl⟩, hq, .inl ⟨hid, rfl⟩⟩
  · next hid =>
    simp only [Option.some.injEq, Prod.mk.injEq] at h
    obtain ⟨rfl, rfl, rfl⟩ := h
    refine ⟨⟨s.seq + 1, rfl⟩, ?_, .inr ⟨hid, rfl, rfl, rfl⟩⟩
    exact idSequence_newID _ _

/-- The parts of a packed entry. -/
theorem Db.packEntry_some {v : DbEnv} {now : Int} {s s' : Db} {o : Obj} {raw : Bytes} {h : EntryHdr} {rec : Bytes}
    (hp : s.packEntry v now o raw = some (s', h, rec)) :
    ∃ q id pre val, s.drawId now o = some (s', q, id) ∧ q ≠ 0 ∧ idPrefix (setContract id o.contract) = some pre ∧
      v.sealValue (s.secret o) o.payload = some val ∧ h = ⟨q, o.topicSize, UInt32.ofNat val.length, o.expiresAt, o.hash⟩ ∧
      rec = packRecord h pre (if s.secret o then 1 else 0) raw val := by
  simp only [Db.packEntry, Option.bind_eq_some_iff] at hp
  obtain ⟨⟨s1, q, id⟩, hd, hp⟩ := hp
  split at hp
  · cases hp
  · next hq =>
    simp only [Option.bind_eq_some_iff] at hp
    obtain ⟨pre, hpre, val, hval, hp⟩ := hp
    simp only [Option.some.injEq, Prod.mk.injEq] at hp
    obtain ⟨rfl, rfl, rfl⟩ := hp
    exact ⟨q, id, pre, val, hd, hq, hpre, hval, rfl, rfl⟩

/-- A put that succeeds. -/
theorem Db.putEntry_ok {v : DbEnv} {now : Int} {s s' : Db} {o o' : Obj} (h : s.putEntry v now o = (s', o', .ok)) :
    s.closed = false ∧ o.refused = none ∧ ∃ n hd rec m t,
      s.packEntry v now (s.parseEntry v now o).1 (s.parseEntry v now o).2 = some ({ s with seq := n }, hd, rec) ∧
      s.mem.put v.mem hd.seq rec = (m, .ok) ∧ addTopic s.trie hd rec = some t ∧
      s' = { s with seq := n, mem := m, win := addWindow s.win s.mem.cur hd.topicHash ⟨hd.seq, hd.expiresAt⟩, trie := t } ∧
      o' = (s.parseEntry v now o).1.reset := by
  simp only [Db.putEntry] at h
  split at h
  · simp at h
  · next hc =>
    have hc : s.closed = false := by simpa using hc
    split at h
    · simp at h
    · next hr =>
      split at h
      · simp at h
      · next s1 o1 hd rec hs =>
        simp only [Db.setEntry, Option.map_eq_some_iff, Prod.mk.injEq] at hs
        obtain ⟨⟨s2, hd2, rec2⟩, hs, rfl, rfl, rfl, rfl⟩ := hs
        obtain ⟨q, id, pre, val, hdr, hq, hpre, hval, rfl, rfl⟩ := Db.packEntry_some hs
        obtain ⟨⟨n, rfl⟩, _⟩ := Db.drawId_some hdr
        split at h
        · next m hm =>
          split at h
          · simp at h
          · next t ht =>
            simp only [Prod.mk.injEq, and_true] at h
            obtain ⟨rfl, rfl⟩ := h
            exact ⟨hc, hr, n, _, _, m, t, hs, hm, ht, rfl, rfl⟩
        · simp at h

/-- When a put succeeds. -/
theorem Db.putEntry_succeeds {v : DbEnv} {now : Int} {s s1 : Db} {o : Obj} {hd : EntryHdr} {rec : Bytes} {m : MemDb} {t : Trie}
    (hc : s.closed = false) (hr : o.refused = none)
    (hp : s.packEntry v now (s.parseEntry v now o).1 (s.parseEntry v now o).2 = some (s1, hd, rec))
    (hm : s.mem.put v.mem hd.seq rec = (m, .ok)) (ht : addTopic s.trie hd rec = some t) :
    s.putEntry v now o = ({ s1 with mem := m, win := addWindow s.win s.mem.cur hd.topicHash ⟨hd.seq, hd.expiresAt⟩, trie := t },
      (s.parseEntry v now o).1.reset, .ok) := by
  obtain ⟨q, id, pre, val, hdr, hq, hpre, hval, rfl, rfl⟩ := Db.packEntry_some hp
  obtain ⟨⟨n, rfl⟩, _⟩ := Db.drawId_some hdr
  simp only [Db.putEntry, hc, hr, Db.setEntry, hp, Option.map_some, hm, ht, Bool.false_eq_true, if_false]

theorem Mac.length_encrypt {m : Mac} (hs : m.cipher.Sound) {src out : Bytes} (h : m.encrypt src = some out) : out.length = src.length + 20 := by
  simp only [Mac.encrypt] at h
  split at h
  · cases h
  · simp only [Option.some.injEq] at h
    rw [← h]
    simp only [List.length_append, hs.length, List.length_take, List.length_drop, signature, List.length_reverse, length_put32]
    omega

/-- Sealing adds at most twenty bytes. -/
theorem DbEnv.length_sealValue {v : DbEnv} (hs : v.mac.cipher.Sound) {b : Bool} {p x : Bytes} (h : v.sealValue b p = some x) :
    x.length ≤ (v.encode p).length + 20 := by
  cases b
  · simp only [DbEnv.sealValue, Bool.false_eq_true, if_false, Option.some.injEq] at h
    rw [← h]; omega
  · simp only [DbEnv.sealValue, if_true] at h
    rw [Mac.length_encrypt hs h]

end Verif
