import Verif.Model.Bloom

/-!
# C45: the filter never denies an added key
-/

namespace Verif

namespace Bloom

theorem setBits_mono (f : Bloom) (h : UInt64) (ks : List UInt64) (bits : List UInt64) (j : UInt64)
    (hj : getBit bits j = some true) : getBit (ks.foldl (fun b k => setBit b (f.pos h k)) bits) j = some true := by
  induction ks generalizing bits with
  | nil => exact hj
  | cons k ks ih => exact ih _ (getBit_setBit_mono _ _ _ hj)

theorem length_setBits (f : Bloom) (h : UInt64) (ks : List UInt64) (bits : List UInt64) :
    (ks.foldl (fun b k => setBit b (f.pos h k)) bits).length = bits.length := by
  induction ks generalizing bits with
  | nil => rfl
  | cons k ks ih => rw [List.foldl_cons, ih, length_setBit]

theorem setBits_self (f : Bloom) (h : UInt64) (ks : List UInt64) (bits : List UInt64) (k : UInt64) (hk : k ∈ ks)
    (hl : ∀ i : UInt64, i.toNat < f.m.toNat → i.toNat / 64 < bits.length) (hm : 2 ≤ f.m.toNat) :
    getBit (ks.foldl (fun b k => setBit b (f.pos h k)) bits) (f.pos h k) = some true := by
  induction ks generalizing bits with
  | nil => simp at hk
  | cons k' ks ih =>
    rw [List.foldl_cons]
    rcases List.mem_cons.1 hk with rfl | hk
    · apply setBits_mono
      apply getBit_setBit_self
      rw [word_index]
      exact hl _ (pos_lt f h k hm)
    · apply ih _ hk
      intro i hi
      rw [length_setBit]; exact hl i hi

/-- A filter as created, then fed with keys. -/
def build (keys : List UInt64) (m : UInt64) (hs : List UInt64) : Option Bloom := (new keys m).map fun f => hs.foldl add f

structure Inv (keys : List UInt64) (m : UInt64) (hs : List UInt64) (f : Bloom) : Prop where
  hkeys : f.keys = keys
  hm : f.m = m
  len : f.bits.length = words m
  has : ∀ h ∈ hs, ∀ k ∈ keys, getBit f.bits (f.pos h k) = some true

theorem inv_build (keys : List UInt64) (m : UInt64) (hs : List UInt64) (h2 : 2 ≤ m.toNat) (hm : m.toNat + 63 < 2 ^ 64) :
    ∃ f, build keys m hs = some f ∧ Inv keys m hs f := by
  have hnew : new keys m = some ⟨List.replicate (words m) 0, keys, m⟩ := by
    rw [new, if_neg]
    intro h
    rw [UInt64.lt_iff_toNat_lt] at h
    have : (2 : UInt64).toNat = 2 := rfl
    omega
  refine ⟨_, by rw [build, hnew]; rfl, ?_⟩
  suffices ∀ (hs done : List UInt64) f, Inv keys m done f → Inv keys m (done ++ hs) (hs.foldl add f) by
    have h0 : Inv keys m [] ⟨List.replicate (words m) 0, keys, m⟩ := ⟨rfl, rfl, by simp, by simp⟩
    simpa using this hs [] _ h0
  intro hs
  induction hs with
  | nil => intro done f h; simpa using h
  | cons h hs ih =>
    intro done f hI
    have : Inv keys m (done ++ [h]) (f.add h) := by
      have hl : ∀ i : UInt64, i.toNat < f.m.toNat → i.toNat / 64 < f.bits.length := by
        intro i hi
        rw [hI.len, words_eq hm]
        rw [hI.hm] at hi
        omega
      refine ⟨hI.hkeys, hI.hm, ?_, ?_⟩
      · simp only [add, length_setBits]; exact hI.len
      · intro x hx k hk
        rcases List.mem_append.1 hx with hx | hx
        · exact setBits_mono f h f.keys f.bits _ (hI.has x hx k hk)
        · simp only [List.mem_singleton] at hx
          subst hx
          exact setBits_self f x f.keys f.bits k (by rw [hI.hkeys]; exact hk) hl (by rw [hI.hm]; exact h2)
    have := ih (done ++ [h]) (f.add h) this
    simpa using this

theorem test_of_inv {keys : List UInt64} {m : UInt64} {hs : List UInt64} {f : Bloom} (hI : Inv keys m hs f) (h : UInt64)
    (hh : h ∈ hs) : f.test h = some true := by
  rw [test, hI.hkeys]
  suffices ∀ ks, (∀ k ∈ ks, k ∈ keys) → f.testKeys h ks = some true from this keys (fun _ h => h)
  intro ks
  induction ks with
  | nil => intro _; rfl
  | cons k ks ih =>
    intro hks
    rw [testKeys, hI.has h hh k (hks k List.mem_cons_self)]
    exact ih fun k' hk' => hks k' (List.mem_cons_of_mem _ hk')

theorem readWords_put (ws : List UInt64) (z : Bytes) : readWords ws.length (ws.flatMap put64 ++ z) = some ws := by
  induction ws with
  | nil => rfl
  | cons w ws ih =>
    simp only [List.length_cons, List.flatMap_cons, readWords, List.append_assoc, get64_put]
    rw [List.drop_append_of_le_length (by simp), List.drop_eq_nil_of_le (by simp)]
    simp [ih]

theorem ofBytes_bytes (f : Bloom) (hm : 2 ≤ f.m.toNat) (hl : f.bits.length = words f.m) :
    ofBytes f.bytes f.m f.keys.length = some f := by
  have hlt : ¬ f.m < 2 := by
    intro h
    rw [UInt64.lt_iff_toNat_lt] at h
    have : (2 : UInt64).toNat = 2 := rfl
    omega
  have hlen : ∀ ws : List UInt64, (ws.flatMap put64).length = 8 * ws.length := by
    intro ws
    induction ws with
    | nil => rfl
    | cons w ws ih => simp only [List.flatMap_cons, List.length_append, ih, length_put64, List.length_cons]; omega
  rw [ofBytes, if_neg hlt, bytes, readWords_put]
  simp only
  rw [List.drop_append_of_le_length (by rw [hlen]; exact Nat.le_refl _), List.drop_eq_nil_of_le (by rw [hlen]; exact Nat.le_refl _),
    List.nil_append, ← hl]
  have := readWords_put f.bits []
  rw [List.append_nil] at this
  rw [this]

end Bloom

/-- C45. For every choice of random keys, every filter size and every history of additions, the filter and the filter restored
from its bytes report every added key as possibly present (and never index out of range doing so). -/
theorem C45_no_false_negative (keys : List UInt64) (m : UInt64) (hs : List UInt64) (h2 : 2 ≤ m.toNat)
    (hm : m.toNat + 63 < 2 ^ 64) : ∃ f, Bloom.build keys m hs = some f ∧
      ∀ h ∈ hs, f.test h = some true ∧ (Bloom.ofBytes f.bytes m keys.length).bind (·.test h) = some true := by
  obtain ⟨f, hf, hI⟩ := Bloom.inv_build keys m hs h2 hm
  refine ⟨f, hf, fun h hh => ⟨Bloom.test_of_inv hI h hh, ?_⟩⟩
  have := Bloom.ofBytes_bytes f (by rw [hI.hm]; exact h2) (by rw [hI.len, hI.hm])
  rw [hI.hm, hI.hkeys] at this
  rw [this]
  exact Bloom.test_of_inv hI h hh

example : (2 : Nat) ≤ Bloom.bloomBits.toNat ∧ Bloom.bloomBits.toNat + 63 < 2 ^ 64 := by decide

/-- C45 at the level of the database, full statement: in any session opened on any filter file, a key appended in that session is
not denied. -/
def C45_statement : Prop := ∀ (file : Bytes) (keys : List UInt64) (f : DBFilter) (h : UInt64),
  keys.length = Bloom.bloomHashes → DBFilter.open_ file keys = some f → (f.append h).test h = some true

theorem getBit_zero (n : Nat) (i : UInt64) : Bloom.getBit (List.replicate n 0) i ≠ some true := by
  simp only [Bloom.getBit, List.getElem?_replicate]
  split <;> simp

/-- C45 fails for the database. A database that was opened and closed without storing anything leaves a filter file; in the next
session every key is denied, whatever the random keys were, because `Test` reads only the file and the file is only written on
Close, from a generator that starts empty in every session (db.go:145, filter.go:38-64). -/
theorem C45_reopen_violated (keys : List UInt64) (hk : keys.length = Bloom.bloomHashes) :
    ∃ f0 file, DBFilter.open_ [] keys = some f0 ∧ f0.close = file ∧
      ∀ keys' f1 h, DBFilter.open_ file keys' = some f1 → (f1.append h).test h = some false := by
  have hnew : Bloom.new keys Bloom.bloomBits = some ⟨List.replicate (Bloom.words Bloom.bloomBits) 0, keys, Bloom.bloomBits⟩ := by
    rw [Bloom.new, if_neg (by decide)]
  refine ⟨⟨[], ⟨List.replicate (Bloom.words Bloom.bloomBits) 0, keys, Bloom.bloomBits⟩⟩, _, by rw [DBFilter.open_, hnew]; rfl, rfl, ?_⟩
  intro keys' f1 h hf1
  simp only [DBFilter.open_, Option.map_eq_some_iff] at hf1
  obtain ⟨g, _, rfl⟩ := hf1
  have hb := Bloom.ofBytes_bytes ⟨List.replicate (Bloom.words Bloom.bloomBits) 0, keys, Bloom.bloomBits⟩ (show 2 ≤ Bloom.bloomBits.toNat by decide)
    (by rw [List.length_replicate])
  rw [show (Bloom.mk (List.replicate (Bloom.words Bloom.bloomBits) 0) keys Bloom.bloomBits).keys.length = Bloom.bloomHashes from hk] at hb
  simp only [DBFilter.append, DBFilter.test, DBFilter.close, List.drop_nil, List.append_nil]
  have hk7 : keys.length = 7 := hk
  obtain ⟨k, ks, rfl⟩ : ∃ k ks, keys = k :: ks := by
    cases keys with
    | nil => simp at hk7
    | cons k ks => exact ⟨k, ks, rfl⟩
  rw [if_neg (by simp [Bloom.bytes]), hb]
  simp only [Option.bind_some, Bloom.test, Bloom.testKeys]
  generalize hp : Bloom.getBit _ _ = r
  have hlt : ((Bloom.pos ⟨List.replicate (Bloom.words Bloom.bloomBits) 0, k :: ks, Bloom.bloomBits⟩ h k) >>> 6).toNat < Bloom.words Bloom.bloomBits := by
    rw [Bloom.word_index]
    have := Bloom.pos_lt ⟨List.replicate (Bloom.words Bloom.bloomBits) 0, k :: ks, Bloom.bloomBits⟩ h k (show 2 ≤ Bloom.bloomBits.toNat by decide)
    have e : Bloom.bloomBits.toNat = 160000 := by decide
    have e2 : Bloom.words Bloom.bloomBits = 2500 := by rw [Bloom.words_eq (by decide), e]
    simp only [e] at this
    generalize Bloom.pos _ _ _ = p at this ⊢
    omega
  have hr : r = some false := by
    rw [← hp]
    simp only [Bloom.getBit, List.getElem?_replicate, if_pos hlt]
    simp
  rw [hr]

theorem C45_violated : ¬ C45_statement := by
  intro hst
  obtain ⟨f0, file, h0, h1, h2⟩ := C45_reopen_violated (List.replicate 7 0) (by decide)
  have hopen : ∃ f1, DBFilter.open_ file (List.replicate 7 0) = some f1 := by
    rw [DBFilter.open_, Bloom.new, if_neg (by decide)]
    exact ⟨_, rfl⟩
  obtain ⟨f1, hf1⟩ := hopen
  have a := hst file (List.replicate 7 0) f1 5 (by decide) hf1
  have b := h2 (List.replicate 7 0) f1 5 hf1
  rw [a] at b
  simp at b

end Verif
