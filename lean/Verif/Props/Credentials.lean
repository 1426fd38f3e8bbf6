import Verif.Model.Credentials

/-!
# Properties of identifiers, encryption, keys and request checks (C09, C46, C51, C52, C59–C62)
-/

namespace Verif

/-! ## Text identifiers -/

/-- C09: every 8-byte key is read back from its text, which has 13 characters, all of the alphabet. -/
theorem C09_key_text (k : Bytes) (h : k.length = 8) :
    TextId.decode8 (TextId.encode8 k) = k ∧ keyDecode (keyEncode k) = some k ∧
      (TextId.encode8 k).length = 13 ∧ ∀ c ∈ TextId.encode8 k, c ∈ TextId.alphabet := by
  refine ⟨TextId.decodeN_encodeN k h (by omega), keyDecode_keyEncode k h, by simp [TextId.encode8], ?_⟩
  intro c hc
  simp only [TextId.encode8, TextId.encodeN, List.mem_map] at hc
  obtain ⟨i, _, rfl⟩ := hc
  exact TextId.encChar_mem _ (by have := TextId.encIndex_lt k i; omega)

example : keyEncode [8, 1, 2, 3, 4, 5, 6, 7] = "BAAQUAQMAQHAM".toUTF8.toList := by decide +kernel

/-- C09: every 32-byte identifier is read back from its text, also when it is decoded in place. -/
theorem C09_id_text (id : Bytes) (h : id.length = 32) :
    TextId.decode32 (TextId.encode32 id) = id ∧
      (TextId.decodeInPlace 32 (TextId.encode32 id)).take 32 = id ∧
      (TextId.encode32 id).length = 52 ∧ ∀ c ∈ TextId.encode32 id, c ∈ TextId.alphabet := by
  have hd : TextId.decode32 (TextId.encode32 id) = id := TextId.decodeN_encodeN id h (by omega)
  refine ⟨hd, ?_, by simp [TextId.encode32], ?_⟩
  · rw [TextId.decodeInPlace_eq 32 _ (by simp [TextId.encode32])]
    rw [show TextId.decodeN 32 (TextId.encode32 id) = id from hd]
    exact List.take_left' h
  · intro c hc
    simp only [TextId.encode32, TextId.encodeN, List.mem_map] at hc
    obtain ⟨i, _, rfl⟩ := hc
    exact TextId.encChar_mem _ (by have := TextId.encIndex_lt id i; omega)

example : TextId.decodeInPlace 32 (TextId.encode32 ((List.range 32).map UInt8.ofNat)) ≠
    TextId.encode32 ((List.range 32).map UInt8.ofNat) := by decide +kernel

/-! ## Encryption -/

/-- A cipher that satisfies the assumptions: the tag is the nonce. -/
def toyAead : Aead where
  lock n p := p ++ leBytes 16 (leNat n)
  unlock n s := if s.length < 16 then none else
    if s.drop (s.length - 16) = leBytes 16 (leNat n) then some (s.take (s.length - 16)) else none

theorem toyAead_sound : toyAead.Sound where
  opens n p := by
    have h1 : ¬ (p ++ leBytes 16 (leNat n)).length < 16 := by simp
    have h2 : (p ++ leBytes 16 (leNat n)).length - 16 = p.length := by simp
    simp only [toyAead, if_neg h1, h2, List.drop_left, List.take_left, if_true]
  length n p := by simp [toyAead]

/-- C46: for every key of 32 bytes and every payload of at least four bytes, decrypting the encryption
with the same key gives the payload. -/
theorem C46_decrypt_encrypt (cipher : Bytes → Aead) (hs : ∀ k, (cipher k).Sound) (key : Bytes) (m : Mac)
    (hm : Mac.new cipher key = some m) (payload : Bytes) (h : 4 ≤ payload.length) :
    ∃ out, m.encrypt payload = some out ∧ (m.decrypt out).1 = some payload := by
  have hsound : m.cipher.Sound := by
    simp only [Mac.new] at hm
    split at hm
    · simp only [Option.some.injEq] at hm; rw [← hm]; exact hs key
    · simp at hm
  exact ⟨_, m.encrypt_eq payload h, (m.decrypt_encrypt hsound payload _ (m.encrypt_eq payload h)).1⟩

/-- C46: a payload of fewer than four bytes cannot be encrypted (the call panics). -/
theorem C46_short_payload (m : Mac) (payload : Bytes) (h : payload.length < 4) : m.encrypt payload = none := by
  simp [Mac.encrypt, h]

/-- The key 0, 1, …, 31. -/
def key0 : Bytes := (List.range 32).map UInt8.ofNat

/-- The message authentication code of that key with the toy cipher. -/
def mac0 : Mac := { cipher := toyAead, salt := [3, 7, 11, 15] }

example : Mac.new (fun _ => toyAead) key0 = some mac0 := by
  have h : key0.length = 32 := by decide
  simp only [Mac.new, if_pos h]
  refine congrArg some ?_
  simp only [mac0, Mac.mk.injEq, true_and]
  decide +kernel

example : (mac0.encrypt [1, 2, 3, 4, 5]).map List.length = some 25 := by decide +kernel

/-- C59 (violated): decrypting changes the bytes it was given — for every cipher, after a successful
decryption the bytes from the fifth on hold the plain text. -/
theorem C59_decrypt_overwrites (m : Mac) (src out : Bytes) (h : (m.decrypt src).1 = some out)
    (hl : out.length ≤ src.length) : (m.decrypt src).2.take out.length = out := by
  simp only [Mac.decrypt] at h ⊢
  split
  · next h20 => simp [h20] at h
  · next h20 =>
    simp only [if_neg h20] at h
    split
    · next hn => simp [hn] at h
    · next plain hp =>
      simp only [hp, Option.some.injEq] at h
      subst h
      simp only [Mac.overhead] at h20
      simp only [patch]
      exact List.take_left' rfl

/-- C59 (violated): the same stored bytes cannot be decrypted twice. -/
theorem C59_decrypt_twice_violated :
    ∃ (m : Mac) (src payload : Bytes), m.cipher.Sound ∧ (m.decrypt src).1 = some payload ∧
      (m.decrypt (m.decrypt src).2).1 = none :=
  ⟨mac0, (mac0.encrypt [1, 2, 3, 4, 5, 6]).getD [], [1, 2, 3, 4, 5, 6], toyAead_sound, by decide +kernel, by decide +kernel⟩

/-- C59, what does hold: a failed decryption leaves the bytes as they were. -/
theorem C59_failed_decrypt_partial (m : Mac) (src : Bytes) (h : (m.decrypt src).1 = none) : (m.decrypt src).2 = src := by
  simp only [Mac.decrypt] at h ⊢
  split
  · rfl
  · next h20 =>
    simp only [if_neg h20] at h
    split
    · rfl
    · next plain hp => simp [hp] at h

example : (mac0.decrypt [1, 2, 3]).1 = none := by decide +kernel

/-! ## Client identifiers -/

/-- C51: for every client id, decoding its text gives the same id. -/
theorem C51_client_id_round_trip (m : Mac) (hs : m.cipher.Sound) (id : Bytes) (h : id.length = 12) :
    ∃ text, cidEncode m id = some text ∧ text.length = 52 ∧ cidDecode m text = some id :=
  cidDecode_cidEncode m hs id h

/-- C51: the epoch, contract, flags and primary number given to a new client id are read from the id that
its text decodes to. -/
theorem C51_client_id_fields (m : Mac) (hs : m.cipher.Sound) (epoch : UInt32) (master : UInt16) (perms : UInt8) (contract : UInt32) :
    ∃ text id, cidEncode m (newClientID epoch master perms contract) = some text ∧ cidDecode m text = some id ∧
      cidEpoch id = some epoch ∧ cidContract id = some contract ∧ cidPermissions id = some perms.toUInt32 ∧
      cidPrimary id = some master := by
  have hl : (newClientID epoch master perms contract).length = 12 := by simp [newClientID]
  obtain ⟨text, h1, _, h2⟩ := cidDecode_cidEncode m hs _ hl
  refine ⟨text, _, h1, h2, ?_, ?_, ?_, ?_⟩
  · have := be32At_mid [] ([(0 : UInt8), (master >>> 8).toUInt8, master.toUInt8, perms] ++ be32 contract) epoch 0 rfl
    simpa [cidEpoch, newClientID] using this
  · have := be32At_mid (be32 epoch ++ [(0 : UInt8), (master >>> 8).toUInt8, master.toUInt8, perms]) [] contract 8 (by simp)
    simpa [cidContract, newClientID] using this
  · have : (newClientID epoch master perms contract)[7]? = some perms := by
      simp only [newClientID]
      rw [List.getElem?_append_left (by simp), List.getElem?_append_right (by simp)]
      simp
    simp [cidPermissions, this]
  · have h5 : (newClientID epoch master perms contract)[5]? = some (master >>> 8).toUInt8 := by
      simp only [newClientID]
      rw [List.getElem?_append_left (by simp), List.getElem?_append_right (by simp)]
      simp
    have h6 : (newClientID epoch master perms contract)[6]? = some master.toUInt8 := by
      simp only [newClientID]
      rw [List.getElem?_append_left (by simp), List.getElem?_append_right (by simp)]
      simp
    simp only [cidPrimary, h5, h6, Option.bind_eq_bind, Option.bind_some, Option.pure_def, Option.some.injEq]
    apply UInt16.toNat_inj.mp
    have hm := master.toNat_lt
    have e1 : ((master >>> 8).toUInt8.toUInt16 <<< 8).toNat = (master.toNat / 256) <<< 8 := by
      simp [Nat.shiftRight_eq_div_pow, Nat.shiftLeft_eq]; omega
    have e2 : master.toUInt8.toUInt16.toNat = master.toNat % 256 := by simp
    rw [UInt16.toNat_or, e1, e2, ← Nat.shiftLeft_add_eq_or_of_lt (show master.toNat % 256 < 2 ^ 8 by omega), Nat.shiftLeft_eq]
    omega

example : (cidEncode mac0 (newClientID 7 1 1 99)).bind (cidDecode mac0) = some [0, 0, 0, 7, 0, 0, 1, 1, 0, 0, 0, 99] := by
  decide +kernel

/-- C61 (violated): for every sound cipher there is a client whose valid id names contract 94, which
after another client of contract 1 has connected is given contract 1: the cache is consulted with four
characters of the text before the text is checked. -/
theorem C61_contract_violated (m : Mac) (hs : m.cipher.Sound) :
    ∃ textA textB : Bytes, cidDecode m textB = some (newClientID 7 1 0 94) ∧
      (onConnect m [] 0 textA).1 = .accepted (newClientID 7 1 0 1) ∧
      (onConnect m (onConnect m [] 0 textA).2 0 textB).1 = .accepted (newClientID 0 1 0 1) := by
  have hlA : (newClientID 7 1 0 1).length = 12 := by decide
  have hlB : (newClientID 7 1 0 94).length = 12 := by decide
  obtain ⟨tA, eA, lA, dA⟩ := cidDecode_cidEncode m hs _ hlA
  obtain ⟨tB, eB, lB, dB⟩ := cidDecode_cidEncode m hs _ hlB
  have hkey : ∀ c t, cidEncode m (newClientID 7 1 0 c) = some t →
      cacheKey t = cacheKey (TextId.encodeN 8 ((xorSalt (newClientID 7 1 0 c)).take 4 ++
        signature (Hash.new (xorSalt (newClientID 7 1 0 c))))) := by
    intro c t h
    have hl : (newClientID 7 1 0 c).length = 12 := by simp [newClientID]
    have h12 : ¬ (newClientID 7 1 0 c).length < 12 := by omega
    rw [cidEncode, if_neg h12, List.take_of_length_le (by omega), m.encrypt_eq _ (by simp [hl])] at h
    simp only [Option.map_some, Option.some.injEq] at h
    rw [← h, cacheKey_encode32 _ _ (by simp [hl])]
  have hAB : cacheKey tA = cacheKey tB := by
    rw [hkey 1 tA eA, hkey 94 tB eB]; decide +kernel
  have hpA : cidIsPrimary (newClientID 7 1 0 1) ≠ some true := by decide
  have hcA : cidContract (newClientID 7 1 0 1) = some 1 := by decide
  have hA : onConnect m [] 0 tA = (.accepted (newClientID 7 1 0 1), [(cacheKey tA, 1)]) := by
    simp only [onConnect, ClientCache.load, List.find?_nil, Option.map_none, ite_self, dA, if_neg hpA, eA, hcA,
      ClientCache.store, Option.getD_some]
  refine ⟨tA, tB, dB, by rw [hA], ?_⟩
  rw [hA]
  have hov : tB.length > m.overhead := by rw [lB]; simp [Mac.overhead]
  simp only [onConnect, if_pos hov, ClientCache.load, ← hAB, List.find?_cons, beq_self_eq_true, Option.map_some]

example : mac0.cipher.Sound := toyAead_sound

/-- C61, what does hold: when the cache has no entry for those four characters, the connection gets
exactly the id that its text encodes. -/
theorem C61_contract_partial (m : Mac) (hs : m.cipher.Sound) (cache : ClientCache) (epoch : UInt32) (id text : Bytes)
    (hl : id.length = 12) (ht : cidEncode m id = some text) (hc : cache.load (cacheKey text) = none) :
    (onConnect m cache epoch text).1 = .accepted id := by
  obtain ⟨t, e, l, d⟩ := cidDecode_cidEncode m hs _ hl
  rw [ht] at e
  simp only [Option.some.injEq] at e
  subst e
  simp only [onConnect, hc, ite_self, d]
  split
  · rfl
  · split <;> rfl

example : ClientCache.load [] (cacheKey []) = none := rfl

/-- C61: a contract once cached stays, whoever connects, so a client given a wrong contract gets it every time. -/
theorem C61_cache_stays (m : Mac) (cache : ClientCache) (epoch : UInt32) (text : Bytes) (k c : UInt32) (h : cache.load k = some c) :
    (onConnect m cache epoch text).2.load k = some c := by
  simp only [onConnect]
  split
  · exact h
  · split
    · exact h
    · split
      · exact h
      · split
        · exact h
        · next t _ =>
          simp only [ClientCache.store]
          split
          · exact h
          · next hn =>
            simp only [ClientCache.load, List.find?_cons]
            by_cases e : cacheKey t = k
            · rw [e, h] at hn; cases hn
            · rw [show (cacheKey t == k) = false by simpa using e]
              exact h

example : ClientCache.load [(5, 1)] 5 = some 1 := rfl

/-! ## Topic keys -/

/-- The number of levels of a topic: the bytes other than a dot that begin the topic or follow a dot. -/
def Spec.levelsFrom (start : Bool) : Bytes → Nat
  | [] => 0
  | c :: cs => if c = 46 then levelsFrom true cs else (if start then 1 else 0) + levelsFrom false cs

@[inherit_doc Spec.levelsFrom] def Spec.levelCount (topic : Bytes) : Nat := Spec.levelsFrom true topic

theorem fields_levels_aux (cur b : Bytes) :
    (fieldsAux 46 cur b).length = (if cur = [] then 0 else 1) + Spec.levelsFrom (decide (cur = [])) b := by
  induction b generalizing cur with
  | nil =>
    by_cases hc : cur = []
    · simp [fieldsAux, hc, Spec.levelsFrom]
    · simp [fieldsAux, hc, Spec.levelsFrom]
  | cons c cs ih =>
    by_cases h46 : c = 46
    · subst h46
      by_cases hc : cur = []
      · simp [fieldsAux, hc, Spec.levelsFrom, ih]
      · simp [fieldsAux, hc, Spec.levelsFrom, ih]; omega
    · by_cases hc : cur = []
      · simp [fieldsAux, hc, Spec.levelsFrom, ih, h46]
      · simp [fieldsAux, hc, Spec.levelsFrom, ih, h46]

theorem fields_levels (b : Bytes) : (fields chDot b).length = Spec.levelCount b := by
  have := fields_levels_aux [] b
  simpa [fields, chDot, Spec.levelCount] using this

theorem partBit_lt (i : Nat) (p : Bytes) : (partBit i p).toNat < 2 ^ 24 := by
  unfold partBit
  split
  · have h : 22 - i ≤ 22 := by omega
    have : (UInt32.ofNat (22 - i)).toNat = 22 - i := by rw [UInt32.toNat_ofNat']; omega
    rw [UInt32.toNat_shiftLeft, this]
    rw [Nat.mod_eq_of_lt (show 22 - i < 32 by omega), Nat.shiftLeft_eq]
    have hp : 2 ^ (22 - i) ≤ 2 ^ 22 := Nat.pow_le_pow_right (by decide) h
    simp only [UInt32.toNat_one, Nat.one_mul]
    exact Nat.lt_of_le_of_lt (Nat.mod_le _ _) (by omega)
  · decide

theorem pathBits_lt (i : Nat) (acc : UInt32) (ps : List Bytes) (h : acc.toNat < 2 ^ 24) : (pathBits i acc ps).toNat < 2 ^ 24 := by
  induction ps generalizing i acc with
  | nil => exact h
  | cons p ps ih =>
    apply ih
    rw [UInt32.toNat_or]
    exact Nat.or_lt_two_pow h (partBit_lt i p)

theorem keyTarget_some {contract : UInt32} {topic : Bytes} {path target : UInt32} (h : keyTarget contract topic = some (path, target)) :
    path.toNat < 2 ^ 24 ∧ target = serverHash topic contract := by
  simp only [keyTarget] at h
  split at h
  · simp at h
  · simp only [Option.some.injEq, Prod.mk.injEq] at h
    obtain ⟨rfl, rfl⟩ := h
    refine ⟨?_, rfl⟩
    apply pathBits_lt
    split
    · decide
    · split <;> decide

/-- The parts of a raw key as the readers see them. -/
theorem rawKey_read {contract : UInt32} {topic : Bytes} {perms : UInt32} {k : Bytes} (h : rawKey contract topic perms = some k) :
    ∃ path : UInt32, k = perms.toUInt8 :: (be24 path ++ be32 (serverHash topic contract)) ∧
      be32At k 4 = some (serverHash topic contract) ∧ UInt32.ofNat (leNat (((k.drop 1).take 3).reverse)) = path := by
  simp only [rawKey, Option.map_eq_some_iff] at h
  obtain ⟨⟨path, target⟩, ht, rfl⟩ := h
  obtain ⟨hp, rfl⟩ := keyTarget_some ht
  refine ⟨path, rfl, ?_, ?_⟩
  · have := be32At_mid (perms.toUInt8 :: be24 path) [] (serverHash topic contract) 4 (by simp)
    simpa using this
  · simp only [List.drop_one, List.tail_cons]
    rw [List.take_left' (by simp), be24_path path hp]

theorem validate_rawKey {contract : UInt32} {topic : Bytes} {perms : UInt32} {k : Bytes} (h : rawKey contract topic perms = some k) :
    (validateTopic k contract topic).1 = true := by
  obtain ⟨path, _, h4, hp⟩ := rawKey_read h
  simp only [validateTopic, h4, Option.getD_some, hp]
  by_cases h0 : path = 0
  · rw [if_pos h0]; split <;> simp
  · rw [if_neg h0]; simp

theorem hasPermission_byte (p : UInt8) (rest : Bytes) (perms flag : UInt32) (hp : p = perms.toUInt8) (hf : flag.toNat < 256) :
    hasPermission (p :: rest) flag = true ↔ perms &&& flag = flag := by
  subst hp
  simp only [hasPermission, beq_iff_eq]
  have e : perms.toUInt8.toUInt32 &&& flag = perms &&& flag := by
    apply UInt32.toNat_inj.mp
    simp only [UInt32.toNat_and, UInt8.toNat_toUInt32, UInt32.toNat_toUInt8]
    apply Nat.eq_of_testBit_eq
    intro i
    simp only [Nat.testBit_and]
    by_cases hi : i < 8
    · rw [Nat.testBit_mod_two_pow]; simp [hi]
    · have : flag.toNat.testBit i = false :=
        Nat.testBit_lt_two_pow (Nat.lt_of_lt_of_le hf (Nat.pow_le_pow_right (n := 2) (i := 8) (by decide) (by omega)))
      simp [this]
  rw [e]

/-- C52: for every topic of at most 23 levels and every permission set, the generated key decodes,
validates that topic and grants exactly the permissions it was generated with. -/
theorem C52_key_opens_topic (contract : UInt32) (topic : Bytes) (perms : UInt32) (h : Spec.levelCount topic ≤ 23) :
    ∃ text k, generateKey contract topic perms = some text ∧ keyDecode text = some k ∧
      (validateTopic k contract topic).1 = true ∧
      ∀ flag : UInt32, flag.toNat < 256 → (hasPermission k flag = true ↔ perms &&& flag = flag) := by
  rw [← fields_levels] at h
  have hn : ¬ (fields chDot topic).length > 23 := by omega
  obtain ⟨k, hk⟩ : ∃ k, rawKey contract topic perms = some k := by
    simp only [rawKey, keyTarget, if_neg hn, Option.map_some]
    exact ⟨_, rfl⟩
  refine ⟨keyEncode k, k, by simp [generateKey, hk], keyDecode_keyEncode k (length_rawKey hk), validate_rawKey hk, ?_⟩
  intro flag hf
  obtain ⟨path, hk', _, _⟩ := rawKey_read hk
  rw [hk']
  exact hasPermission_byte _ _ _ _ rfl hf

example : Spec.levelCount "a.b.c".toUTF8.toList = 3 ∧
    (generateKey 7 "a.b.c".toUTF8.toList allowRead).isSome = true := by decide +kernel

/-- C52: a generated key opens, of the same contract, only topics with the hash of its own topic, unless its topic hashes like "...",
the text for all topics. -/
theorem C52_key_opens_only (contract : UInt32) (topic topic' text k : Bytes) (perms : UInt32) (hg : generateKey contract topic perms = some text)
    (hk : keyDecode text = some k) (hv : (validateTopic k contract topic').1 = true) :
    serverHash topic' contract = serverHash topic contract ∨ serverHash topic contract = serverHash dots3 contract := by
  simp only [generateKey, Option.map_eq_some_iff] at hg
  obtain ⟨k', hk', rfl⟩ := hg
  rw [keyDecode_keyEncode k' (length_rawKey hk'), Option.some.injEq] at hk
  subst hk
  obtain ⟨path, _, h4, hp⟩ := rawKey_read hk'
  simp only [validateTopic, h4, Option.getD_some, hp] at hv
  by_cases h0 : path = 0
  · rw [if_pos h0] at hv
    split at hv
    · next h => exact .inr h
    · simp only [beq_iff_eq] at hv; exact .inl hv.symm
  · rw [if_neg h0] at hv
    simp only [beq_iff_eq] at hv; exact .inl hv

/-- The key of "a.b" does not open "a.c", and its hash is not that of "...". -/
example : ((generateKey 7 "a.b".toUTF8.toList allowRead).bind keyDecode).map (fun k => (validateTopic k 7 "a.c".toUTF8.toList).1) = some false ∧
    serverHash "a.b".toUTF8.toList 7 ≠ serverHash dots3 7 := by decide +kernel

/-- C52: topics of more than 23 levels are refused. -/
theorem C52_too_long (contract : UInt32) (topic : Bytes) (perms : UInt32) (h : 23 < Spec.levelCount topic) :
    generateKey contract topic perms = none := by
  rw [← fields_levels] at h
  simp [generateKey, rawKey, keyTarget, h]

example : Spec.levelCount ((List.replicate 24 [(97 : UInt8), 46]).flatten) = 24 := by decide +kernel

/-! ## Requests -/

theorem fieldsAux_no_sep (sep : UInt8) (cur b : Bytes) (h : sep ∉ b) :
    fieldsAux sep cur b = if cur ++ b = [] then [] else [cur ++ b] := by
  induction b generalizing cur with
  | nil => cases cur <;> simp [fieldsAux]
  | cons c cs ih =>
    have hc : c ≠ sep := by intro e; exact h (by simp [e])
    have : sep ∉ cs := fun hh => h (by simp [hh])
    simp [fieldsAux, hc, ih _ this]

theorem fieldsAux_split (sep : UInt8) (cur a b : Bytes) (h : sep ∉ a) :
    fieldsAux sep cur (a ++ sep :: b) = (if cur ++ a = [] then [] else [cur ++ a]) ++ fieldsAux sep [] b := by
  induction a generalizing cur with
  | nil => cases cur <;> simp [fieldsAux]
  | cons c cs ih =>
    have hc : c ≠ sep := by intro e; exact h (by simp [e])
    have : sep ∉ cs := fun hh => h (by simp [hh])
    simp [fieldsAux, hc, ih _ this]

/-- The request text "key/topic". -/
def Spec.request (key topic : Bytes) : Bytes := key ++ chSlash :: topic

theorem parseRequest_key_topic (key topic : Bytes) (hk : key ≠ []) (hk' : chSlash ∉ key) (ht : topic ≠ [])
    (hs : chSlash ∉ topic) (hq : chQuery ∉ topic) :
    parseRequest (Spec.request key topic) = some { key := key, topic := topic, size := topic.length, valid := true } := by
  have h1 : fields chSlash (Spec.request key topic) = [key, topic] := by
    rw [fields, Spec.request, fieldsAux_split chSlash [] key topic hk', fieldsAux_no_sep chSlash [] topic hs]
    simp [hk, ht]
  have h2 : fields chQuery topic = [topic] := by
    rw [fields, fieldsAux_no_sep chQuery [] topic hq]; simp [ht]
  simp [parseRequest, h1, h2]

theorem slash_not_in_alphabet : chSlash ∉ TextId.alphabet := by decide +kernel

theorem key_text_no_slash (k : Bytes) : chSlash ∉ keyEncode k := by
  intro h
  simp only [keyEncode, TextId.encode8, TextId.encodeN, List.mem_map] at h
  obtain ⟨i, _, hi⟩ := h
  apply slash_not_in_alphabet
  rw [← hi]
  exact TextId.encChar_mem _ (by have := TextId.encIndex_lt (xorSalt k) i; omega)

/-- C52, end to end: a client that sends its key and topic is granted the request exactly when the key was
generated with the read permission. -/
theorem C52_request (contract : UInt32) (topic : Bytes) (perms : UInt32) (text : Bytes) (hg : generateKey contract topic perms = some text)
    (ht : topic ≠ []) (hs : chSlash ∉ topic) (hq : chQuery ∉ topic) :
    (∃ w, onTopicRequest false contract (Spec.request text topic) = some (.granted w)) ↔ perms &&& allowRead = allowRead := by
  simp only [generateKey, Option.map_eq_some_iff] at hg
  obtain ⟨k, hk, rfl⟩ := hg
  have hne : keyEncode k ≠ [] := by
    intro e
    have : (keyEncode k).length = 13 := by simp [keyEncode, TextId.encode8]
    simp [e] at this
  have hp := parseRequest_key_topic (keyEncode k) topic hne (key_text_no_slash k) ht hs hq
  have hd := keyDecode_keyEncode k (length_rawKey hk)
  have hv := validate_rawKey hk
  obtain ⟨path, hk', _, _⟩ := rawKey_read hk
  have hperm : hasPermission k allowRead = true ↔ perms &&& allowRead = allowRead := by
    rw [hk']; exact hasPermission_byte _ _ _ _ rfl (by decide)
  rw [← hperm]
  simp only [onTopicRequest, hp, Option.map_some, Bool.not_true, Bool.false_eq_true, if_false, onSecureRequest, hd,
    List.take_length, hv]
  cases hr : hasPermission k allowRead <;> simp

example : onTopicRequest false 7 (Spec.request ((generateKey 7 "a.b".toUTF8.toList (access [114])).getD []) "a.b".toUTF8.toList) =
    some (.granted false) := by decide +kernel

/-- C60 (violated): a key that grants reading only lets its holder publish. -/
theorem C60_read_key_publishes_violated :
    ∃ (contract : UInt32) (topic text : Bytes), generateKey contract topic (access [114]) = some text ∧
      access [114] &&& allowWrite = 0 ∧
      onPublishRequest false contract (Spec.request text topic) = some (.granted false) :=
  ⟨7, "a.b".toUTF8.toList, (generateKey 7 "a.b".toUTF8.toList (access [114])).getD [], by decide +kernel, by decide +kernel, by decide +kernel⟩

/-- C60 (violated): no key generated with the write permission but without the read permission lets its
holder publish to its topic. -/
theorem C60_write_key_refused (contract : UInt32) (topic text : Bytes) (perms : UInt32) (hg : generateKey contract topic perms = some text)
    (hr : perms &&& allowRead ≠ allowRead) (ht : topic ≠ []) (hs : chSlash ∉ topic) (hq : chQuery ∉ topic) :
    onPublishRequest false contract (Spec.request text topic) = some .unauthorized := by
  simp only [generateKey, Option.map_eq_some_iff] at hg
  obtain ⟨k, hk, rfl⟩ := hg
  have hlen : (keyEncode k).length = 13 := by simp [keyEncode, TextId.encode8]
  have hne : keyEncode k ≠ [] := by intro e; simp [e] at hlen
  have hsp : keyEncode k ≠ specialKey := by
    intro e
    have : specialKey.length = 6 := by decide +kernel
    rw [e] at hlen; omega
  have hp := parseRequest_key_topic (keyEncode k) topic hne (key_text_no_slash k) ht hs hq
  have hd := keyDecode_keyEncode k (length_rawKey hk)
  obtain ⟨path, hk', _, _⟩ := rawKey_read hk
  have hperm : hasPermission k allowRead = false := by
    rw [← Bool.not_eq_true, hk', hasPermission_byte _ _ _ allowRead rfl (by decide)]; exact hr
  simp [onPublishRequest, hp, hsp, onSecureRequest, hd, hperm]

example : access [119] &&& allowRead ≠ allowRead ∧ (generateKey 7 "a.b".toUTF8.toList (access [119])).isSome = true := by
  decide +kernel

/-- C60, what does hold: a publish that is granted on a secured connection, other than a request to the
service itself, carries a 13-character key whose target, its last four bytes, is the hash of the topic, with the read permission. -/
theorem C60_publish_partial (contract : UInt32) (text : Bytes) (w : Bool) (h : onPublishRequest false contract text = some (.granted w)) :
    w = false ∧ ∃ t, parseRequest text = some t ∧ (t.key = specialKey ∨
      ∃ k, keyDecode t.key = some k ∧ hasPermission k allowRead = true ∧
        (be32At k 4).getD 0 = serverHash (t.topic.take t.size) contract) := by
  simp only [onPublishRequest, Option.map_eq_some_iff] at h
  obtain ⟨t, ht, h⟩ := h
  split at h
  · simp at h
  · split at h
    · next hk => simp at h; exact ⟨h, t, ht, Or.inl hk⟩
    · simp only [Bool.false_eq_true, if_false] at h
      split at h
      · simp at h
      · next v hv hn =>
        refine ⟨?_, t, ht, Or.inr ?_⟩
        · cases w with
          | false => rfl
          | true => exact absurd h hn
        · simp only [onSecureRequest] at h
          split at h
          · simp at h
          · next k hk =>
            refine ⟨k, hk, ?_⟩
            split at h
            · simp at h
            · next hperm =>
              split at h
              · simp at h
              · next hok =>
                simp at hperm hok
                refine ⟨hperm, ?_⟩
                have hw : (validateTopic k contract (t.topic.take t.size)).2 = w := by
                  simpa [hok] using h
                have hw0 : w = false := by
                  cases w with
                  | false => rfl
                  | true => exact absurd h (by simp [hok, onSecureRequest, hk, hperm, hw] at hn)
                rw [hw0] at hw
                simp only [validateTopic] at hok hw
                split at hok
                · next h0 => rw [if_pos h0] at hw; split at hw <;> cases hw
                · simp only [beq_iff_eq] at hok; exact hok.symm

/-- C62 (violated): a topic text that is empty or consists of slashes crashes the server; every other
text is parsed. -/
theorem C62_crash_iff (text : Bytes) : parseRequest text = none ↔ ∀ c ∈ text, c = chSlash := by
  have key : ∀ (cur b : Bytes), fieldsAux chSlash cur b = [] ↔ cur = [] ∧ ∀ c ∈ b, c = chSlash := by
    intro cur b
    induction b generalizing cur with
    | nil => cases cur <;> simp [fieldsAux]
    | cons c cs ih =>
      by_cases hc : c = chSlash
      · cases cur <;> simp [fieldsAux, hc, ih]
      · simp [fieldsAux, hc, ih]
  have h1 : parseRequest text = none ↔ fields chSlash text = [] := by
    simp only [parseRequest]
    split
    · simp_all
    · simp_all
    · split <;> simp_all
  rw [h1, fields, key]
  simp

/-- C62 (violated): one publish with the topic "/" stops the server, also on a secured connection. -/
theorem C62_publish_crash_violated (insecure : Bool) (contract : UInt32) : onPublishRequest insecure contract [chSlash] = none := by
  have : parseRequest [chSlash] = none := (C62_crash_iff _).mpr (by simp)
  simp [onPublishRequest, this]

/-- C62, what does hold: a topic text with any other byte gets a verdict. -/
theorem C62_no_crash_partial (insecure : Bool) (contract : UInt32) (text : Bytes) (h : ∃ c ∈ text, c ≠ chSlash) :
    (onTopicRequest insecure contract text).isSome = true ∧ (onPublishRequest insecure contract text).isSome = true := by
  have hn : parseRequest text ≠ none := by
    intro e
    obtain ⟨c, hc, hne⟩ := h
    exact hne ((C62_crash_iff text).mp e c hc)
  obtain ⟨t, ht⟩ := Option.ne_none_iff_exists'.mp hn
  simp [onTopicRequest, onPublishRequest, ht]

example : ∃ c ∈ "a/b".toUTF8.toList, c ≠ chSlash := by decide +kernel

end Verif
