import Verif.Model.Message

/-!
# C07, C08, C17, C24: message ids and topic codes
-/

namespace Verif

/-- C07. The id of a message carries its sequence and, for any clock in the supported era, its creation second. -/
theorem C07_id_fields (now : Int) (seq : UInt64) (h1 : 1555770000 ≤ now) (h2 : now < 1555770000 + 2 ^ 32) :
    (newID now seq).length = 16 ∧ idSequence (newID now seq) = some seq ∧
    idContract (newID now seq) = some masterContract ∧ uidTime (newID now seq) = some now := by
  refine ⟨length_newID .., ?_, ?_, ?_⟩
  · simp [idSequence, newID, get64_skip]
  · simp [idContract, newID, get32_skip]
  · simp only [uidTime, newID, get32_put, Option.map_some, newApoch, apochOffset]
    congr 1
    have e : (0xFFFFFFFF : UInt32) - (0xFFFFFFFF - UInt32.ofInt (now - 1555770000)) = UInt32.ofInt (now - 1555770000) := by
      generalize UInt32.ofInt (now - 1555770000) = x
      apply UInt32.toNat.inj
      have hx := x.toNat_lt
      have h : UInt32.toNat 0xFFFFFFFF = 4294967295 := rfl
      simp only [UInt32.toNat_sub, h]
      omega
    rw [e]
    have e2 : (UInt32.ofInt (now - 1555770000)).toNat = (now - 1555770000).toNat := by
      simp only [UInt32.ofInt, UInt32.toNat_ofNat']
      omega
    rw [e2]; omega

example : (1555770000 : Int) ≤ 1790000000 ∧ (1790000000 : Int) < 1555770000 + 2 ^ 32 := by decide

/-- C07. Setting the contract changes the contract and nothing else, for every 16 byte id. -/
theorem C07_set_contract (id : Bytes) (c : UInt32) (h : id.length = 16) :
    (setContract id c).length = 16 ∧ idContract (setContract id c) = some c ∧
    idSequence (setContract id c) = idSequence id ∧ uidTime (setContract id c) = uidTime id := by
  have e : setContract id c = id.take 4 ++ (put32 c ++ id.drop 8) := by
    have : (id ++ List.replicate 16 0).take 16 = id := by rw [← h, List.take_left']; rfl
    simp only [setContract, this, patch, length_put32, List.append_assoc]
  have e0 : id = id.take 4 ++ ((id.drop 4).take 4 ++ id.drop 8) := by
    rw [show id.drop 8 = (id.drop 4).drop 4 by simp, List.take_append_drop, List.take_append_drop]
  have l4 : (id.take 4).length = 4 := by simp; omega
  have l44 : ((id.drop 4).take 4).length = 4 := by simp; omega
  refine ⟨by rw [e]; simp; omega, ?_, ?_, ?_⟩
  · simp [e, idContract, get32_skip, l4]
  · rw [e]
    conv => rhs; rw [e0]
    simp [idSequence, get64_skip, l4, l44]
  · rw [e]
    conv => rhs; rw [e0]
    simp only [uidTime, get32, slice?_append_left _ _ (0 + 4) (by rw [l4])]

example : (newID 1600000000 7).length = 16 := by decide

/-- C07. Different sequences give different ids, whatever the clock and contract. -/
theorem C07_ids_distinct (n n' : Int) (s s' : UInt64) (c c' : UInt32) (h : s ≠ s') :
    setContract (newID n s) c ≠ setContract (newID n' s') c' := by
  intro e
  have h1 := (C07_set_contract (newID n s) c (length_newID ..)).2.2.1
  have h2 := (C07_set_contract (newID n' s') c' (length_newID ..)).2.2.1
  rw [e, h2] at h1
  have a1 : idSequence (newID n s) = some s := by simp [idSequence, newID, get64_skip]
  have a2 : idSequence (newID n' s') = some s' := by simp [idSequence, newID, get64_skip]
  rw [a1, a2] at h1
  exact h (Option.some.inj h1).symm

/-- The claim in the code comment "lexicographically sortable" (message/id.go:41) is false: a later message can sort first. -/
theorem C07_not_sorted_violated :
    ∃ (n n' : Int) (s s' : UInt64), n < n' ∧ s < s' ∧ newID n' s' < newID n s :=
  ⟨1600000000, 1600000001, 1, 2, by decide, by decide, by decide⟩

/-- C24. The check applied to every message before it is returned: accepted exactly when the contract is the asked one and,
if a cutoff is set, the message was created at or after it. -/
theorem C24_cutoff_exact (now : Int) (seq : UInt64) (c contract : UInt32) (cutoff : Int) (rest : Bytes)
    (h1 : 1555770000 ≤ now) (h2 : now < 1555770000 + 2 ^ 32) :
    ∃ p, idPrefix (setContract (newID now seq) c) = some p ∧
      evalPrefix (p ++ rest) contract cutoff = some (decide (c = contract ∧ (cutoff > 0 → now ≥ cutoff))) := by
  have hset := C07_set_contract (newID now seq) c (length_newID ..)
  have hid := C07_id_fields now seq h1 h2
  have e : setContract (newID now seq) c = put32 (newApoch now) ++ (put32 c ++ put64 seq) := by
    have : (newID now seq ++ List.replicate 16 0).take 16 = newID now seq := by
      rw [← length_newID now seq, List.take_left']; rfl
    simp only [setContract, this, patch, length_put32, List.append_assoc]
    congr 1
  refine ⟨put32 (newApoch now) ++ put32 c, ?_, ?_⟩
  · rw [e, idPrefix, ← List.append_assoc]
    exact slice?_append_left _ _ 8 (by simp)
  · have ht : uidTime (put32 (newApoch now) ++ put32 c ++ rest) = some now := by
      have := hid.2.2.2
      simp only [uidTime, newID, List.append_assoc, get32_put] at this ⊢
      exact this
    have hc : idContract (put32 (newApoch now) ++ put32 c ++ rest) = some c := by
      simp [idContract, get32_skip]
    simp only [evalPrefix, hc, ht]
    by_cases h : cutoff > 0
    · simp [h, Bool.and_comm, Bool.decide_and, BEq.beq]
    · simp [h, BEq.beq]

example : (1555770000 : Int) ≤ 1790000000 ∧ (1790000000 : Int) < 1555770000 + 2 ^ 32 := by decide

/-- C08. A topic whose parts (its contract and at most `depth` levels) were counted in the depth byte is rebuilt exactly. -/
theorem C08_topic_roundtrip (t : Topic) (h : t.parts.length ≤ t.depth.toNat + 1) :
    Topic.unmarshal t.marshal = some t := by
  simp [Topic.unmarshal, Topic.marshal, unmarshalParts_encode _ _ h]

/-- A topic of three levels: contract and three parts, one with a wildcard count. -/
example : (⟨[⟨7, 0⟩, ⟨1, 0⟩, ⟨2, 1⟩, ⟨3, 0⟩], 3⟩ : Topic).parts.length ≤ (3 : UInt8).toNat + 1 := by decide

/-- C08, the limit: with more parts than the depth byte counts (256 levels and more wrap the byte) the topic that comes back is
never the one stored. -/
theorem C08_too_deep (t : Topic) (h : t.depth.toNat + 1 < t.parts.length) : Topic.unmarshal t.marshal ≠ some t := by
  have key : ∀ (n : Nat) (b : Bytes) (ps : List Part), unmarshalParts n b = some ps → ps.length ≤ n := by
    intro n
    induction n with
    | zero => intro b ps hp; simp [unmarshalParts] at hp; simp [hp]
    | succ n ih =>
      intro b ps hp
      cases b with
      | nil => simp [unmarshalParts] at hp; subst hp; simp
      | cons w rest =>
        simp only [unmarshalParts, bind, Option.bind_eq_some_iff] at hp
        obtain ⟨h, _, qs, hq, he⟩ := hp
        cases he
        have := ih _ _ hq
        simp; omega
  intro hc
  simp only [Topic.unmarshal, Topic.marshal, List.singleton_append, bind, Option.bind_eq_some_iff] at hc
  obtain ⟨ps, hp, he⟩ := hc
  have h1 := key _ _ _ hp
  have h2 : ps = t.parts := congrArg Topic.parts (Option.some.inj he)
  rw [h2] at h1
  omega

example : (⟨List.replicate 257 ⟨1, 0⟩, 0⟩ : Topic).depth.toNat + 1 < (List.replicate 257 (⟨1, 0⟩ : Part)).length := by
  rw [List.length_replicate]; decide

end Verif
