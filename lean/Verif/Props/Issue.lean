import Verif.Model.Issue
import Verif.Props.Credentials
import Mathlib.Data.List.Forall2

/-!
# C105: keys and client ids are given out as asked, to those entitled
-/

namespace Verif

/-- What a word of letters asks for: "o" everything, "a" everything but owning, "r" reading, "w" writing. -/
def Spec.asksOwner (type : Bytes) : Prop := (111 : UInt8) ∈ type
@[inherit_doc Spec.asksOwner] def Spec.asksAdmin (type : Bytes) : Prop := (97 : UInt8) ∈ type ∨ Spec.asksOwner type
@[inherit_doc Spec.asksOwner] def Spec.asksRead (type : Bytes) : Prop := (114 : UInt8) ∈ type ∨ Spec.asksAdmin type
@[inherit_doc Spec.asksOwner] def Spec.asksWrite (type : Bytes) : Prop := (119 : UInt8) ∈ type ∨ Spec.asksAdmin type

/-! ## Client ids -/

theorem newClientID_contract (epoch : UInt32) (master : UInt16) (perms : UInt8) (contract : UInt32) :
    cidContract (newClientID epoch master perms contract) = some contract := by
  have := be32At_mid (be32 epoch ++ [(0 : UInt8), (master >>> 8).toUInt8, master.toUInt8, perms]) [] contract 8 (by simp)
  simpa [cidContract, newClientID] using this

theorem newClientID_permissions (epoch : UInt32) (master : UInt16) (perms : UInt8) (contract : UInt32) :
    cidPermissions (newClientID epoch master perms contract) = some perms.toUInt32 := by
  have : (newClientID epoch master perms contract)[7]? = some perms := by
    simp only [newClientID]
    rw [List.getElem?_append_left (by simp), List.getElem?_append_right (by simp)]
    simp
  simp [cidPermissions, this]

theorem secondary_refused (m : Mac) (e epoch contract : UInt32) (master : UInt16) :
    onClientIdRequest m e (newClientID epoch master 0 contract) = some .idForbidden := by
  have : cidIsPrimary (newClientID epoch master 0 contract) = some false := by
    simp [cidIsPrimary, newClientID_permissions]
  simp [onClientIdRequest, this]

theorem contract_of_twelve (own : Bytes) (hl : own.length = 12) : ∃ c, cidContract own = some c := by
  simp only [cidContract, be32At, slice?, Option.map_eq_some_iff]
  refine ⟨_, _, if_pos ?_, rfl⟩
  omega

/-- C105: a client with a primary id, and no other, gets a client id. That id is of the contract of the client and
is not primary: it is refused further ids. -/
theorem C105_client_id (m : Mac) (hs : m.cipher.Sound) (epoch : UInt32) (own : Bytes) (hl : own.length = 12) :
    ∃ out, onClientIdRequest m epoch own = some out ∧
      (cidPermissions own ≠ some 1 → out = .idForbidden) ∧
      (cidPermissions own = some 1 → ∃ text id, out = .clientId text ∧ cidDecode m text = some id ∧
        cidEpoch id = some epoch ∧ cidContract id = cidContract own ∧ ∀ e, onClientIdRequest m e id = some .idForbidden) := by
  obtain ⟨p, hp⟩ : ∃ p, cidPermissions own = some p := by
    have h7 : 7 < own.length := by omega
    exact ⟨own[7].toUInt32, by simp [cidPermissions, List.getElem?_eq_getElem h7]⟩
  obtain ⟨c, hc⟩ := contract_of_twelve own hl
  by_cases h1 : p = 1
  · subst h1
    have hlen : (newClientID epoch 1 0 c).length = 12 := by simp [newClientID]
    obtain ⟨text, he, _, hd⟩ := cidDecode_cidEncode m hs _ hlen
    refine ⟨.clientId text, ?_, fun h => absurd hp h, fun _ => ⟨text, _, rfl, hd, ?_, ?_, fun e => secondary_refused m e epoch c 1⟩⟩
    · simp [onClientIdRequest, cidIsPrimary, hp, newSecondary, hc, he]
    · have := be32At_mid [] ([(0 : UInt8), ((1 : UInt16) >>> 8).toUInt8, (1 : UInt16).toUInt8, 0] ++ be32 c) epoch 0 rfl
      simpa [cidEpoch, newClientID] using this
    · rw [hc, newClientID_contract]
  · refine ⟨.idForbidden, ?_, fun _ => rfl, fun h => ?_⟩
    · have : (p == 1) = false := by simpa using h1
      simp [onClientIdRequest, cidIsPrimary, hp, this]
    · rw [hp] at h; exact absurd (Option.some.inj h) h1

/-- A primary id gets one. -/
example : ∃ text, onClientIdRequest mac0 7 (newClientID 3 1 1 94) = some (.clientId text) := by
  obtain ⟨out, h, _, h2⟩ := C105_client_id mac0 toyAead_sound 7 (newClientID 3 1 1 94) (by decide)
  obtain ⟨text, _, e, _⟩ := h2 (by decide)
  exact ⟨text, by rw [h, e]⟩

/-- C105: whoever connects with an id that was given out, to a server that has seen any clients before, is let in and is refused
further ids. -/
theorem C105_no_chain (m : Mac) (hs : m.cipher.Sound) (epoch epoch' : UInt32) (own text : Bytes) (hl : own.length = 12)
    (h : onClientIdRequest m epoch own = some (.clientId text)) (cache : ClientCache) :
    ∃ id, (onConnect m cache epoch' text).1 = .accepted id ∧ ∀ e, onClientIdRequest m e id = some .idForbidden := by
  obtain ⟨out, ho, h1, h2⟩ := C105_client_id m hs epoch own hl
  rw [h, Option.some.injEq] at ho
  subst ho
  by_cases hp : cidPermissions own = some 1
  · obtain ⟨t, id, ht, hd, _, _, hr⟩ := h2 hp
    simp only [Issued.clientId.injEq] at ht
    subst ht
    simp only [onConnect]
    split
    · next c _ => exact ⟨_, rfl, fun e => secondary_refused m e epoch' c 1⟩
    · rw [hd]
      simp only
      split
      · exact ⟨id, rfl, hr⟩
      · split
        · exact ⟨id, rfl, hr⟩
        · exact ⟨id, rfl, hr⟩
  · exact absurd (h1 hp) (by simp)

/-! ## Keys -/

theorem flag_iff (a : UInt32) (k : Nat) (f : UInt32) (hf : f.toNat = 2 ^ k) : a &&& f = f ↔ a.toNat.testBit k = true := by
  rw [← UInt32.toNat_inj, UInt32.toNat_and, hf]
  constructor
  · intro h
    have := congrArg (·.testBit k) h
    simpa [Nat.testBit_and, Nat.testBit_two_pow_self] using this
  · intro h
    apply Nat.eq_of_testBit_eq
    intro i
    rw [Nat.testBit_and, Nat.testBit_two_pow]
    by_cases e : k = i
    · subst e; simp [h]
    · simp [e]

theorem access_bit (type : Bytes) (k : Nat) (acc : UInt32) :
    (type.foldl (fun r c => r ||| accessOf c) acc).toNat.testBit k = true ↔
      acc.toNat.testBit k = true ∨ ∃ c ∈ type, (accessOf c).toNat.testBit k = true := by
  induction type generalizing acc with
  | nil => simp
  | cons c cs ih =>
    simp only [List.foldl_cons, ih, UInt32.toNat_or, Nat.testBit_or, Bool.or_eq_true, List.mem_cons, exists_eq_or_imp,
      or_assoc]

/-- The letters that set a flag. -/
theorem access_flag (type : Bytes) (k : Nat) (f : UInt32) (hf : f.toNat = 2 ^ k) :
    access type &&& f = f ↔ ∃ c ∈ type, (accessOf c).toNat.testBit k = true := by
  rw [flag_iff _ k f hf, access, access_bit]
  simp

theorem accessOf_bits (c : UInt8) :
    ((accessOf c).toNat.testBit 1 = true ↔ c = 111) ∧ ((accessOf c).toNat.testBit 2 = true ↔ c = 97 ∨ c = 111) ∧
      ((accessOf c).toNat.testBit 3 = true ↔ c = 114 ∨ c = 97 ∨ c = 111) ∧
      ((accessOf c).toNat.testBit 4 = true ↔ c = 119 ∨ c = 97 ∨ c = 111) := by
  by_cases h1 : c = 111
  · subst h1; decide
  by_cases h2 : c = 97
  · subst h2; decide
  by_cases h3 : c = 114
  · subst h3; decide
  by_cases h4 : c = 119
  · subst h4; decide
  simp [accessOf, h1, h2, h3, h4]

theorem access_asks (type : Bytes) :
    (access type &&& allowOwner = allowOwner ↔ Spec.asksOwner type) ∧ (access type &&& allowAdmin = allowAdmin ↔ Spec.asksAdmin type) ∧
      (access type &&& allowRead = allowRead ↔ Spec.asksRead type) ∧ (access type &&& allowWrite = allowWrite ↔ Spec.asksWrite type) := by
  have h := fun c => accessOf_bits c
  refine ⟨?_, ?_, ?_, ?_⟩
  · rw [access_flag type 1 _ (by decide)]
    simp [(h _).1, Spec.asksOwner]
  · rw [access_flag type 2 _ (by decide)]
    simp [(h _).2.1, Spec.asksAdmin, Spec.asksOwner, and_or_left, exists_or]
  · rw [access_flag type 3 _ (by decide)]
    simp [(h _).2.2.1, Spec.asksRead, Spec.asksAdmin, Spec.asksOwner, and_or_left, exists_or]
  · rw [access_flag type 4 _ (by decide)]
    simp [(h _).2.2.2, Spec.asksWrite, Spec.asksAdmin, Spec.asksOwner, and_or_left, exists_or]

theorem keyGenLoop_eq (contract : UInt32) (asks : List KeyAsk) (acc : List (Bytes × Bytes)) :
    keyGenLoop contract asks acc =
      (asks.mapM fun a => (generateKey contract a.topic (access a.type)).map fun k => (k, a.topic)).map (acc ++ ·) := by
  induction asks generalizing acc with
  | nil => simp [keyGenLoop]
  | cons a as ih =>
    simp only [keyGenLoop, List.mapM_cons]
    cases generateKey contract a.topic (access a.type) with
    | none => simp
    | some k =>
      simp only [ih, Option.map_some, Option.bind_eq_bind, Option.bind_some]
      cases as.mapM fun a => (generateKey contract a.topic (access a.type)).map fun k => (k, a.topic) <;> simp

/-- What a request for keys is answered. -/
def Spec.AnswersKey (contract : UInt32) (a : KeyAsk) (r : Bytes × Bytes) : Prop :=
  r.2 = a.topic ∧ ∃ k, keyDecode r.1 = some k ∧ (validateTopic k contract a.topic).1 = true ∧
    (hasPermission k allowOwner = true ↔ Spec.asksOwner a.type) ∧ (hasPermission k allowAdmin = true ↔ Spec.asksAdmin a.type) ∧
    (hasPermission k allowRead = true ↔ Spec.asksRead a.type) ∧ (hasPermission k allowWrite = true ↔ Spec.asksWrite a.type)

theorem mapM_answers (contract : UInt32) (asks : List KeyAsk) (h : ∀ a ∈ asks, Spec.levelCount a.topic ≤ 23) :
    ∃ answers, (asks.mapM fun a => (generateKey contract a.topic (access a.type)).map fun k => (k, a.topic)) = some answers ∧
      List.Forall₂ (Spec.AnswersKey contract) asks answers := by
  induction asks with
  | nil => exact ⟨[], rfl, .nil⟩
  | cons a as ih =>
    obtain ⟨rest, hr, hf⟩ := ih fun x hx => h x (List.mem_cons_of_mem _ hx)
    obtain ⟨text, k, hg, hk, hv, hp⟩ := C52_key_opens_topic contract a.topic (access a.type) (h a List.mem_cons_self)
    obtain ⟨ho, ha, hrd, hw⟩ := access_asks a.type
    refine ⟨(text, a.topic) :: rest, by simp [List.mapM_cons, hg, hr], .cons ⟨rfl, k, hk, hv, ?_, ?_, ?_, ?_⟩ hf⟩
    · rw [hp _ (by decide), ho]
    · rw [hp _ (by decide), ha]
    · rw [hp _ (by decide), hrd]
    · rw [hp _ (by decide), hw]

/-- C105: a request for keys is answered with one key for each topic, in order; each opens its topic in the contract of the client and has
exactly the rights whose letters were sent. A topic of more than 23 levels anywhere turns the whole answer into an error. -/
theorem C105_keys (own : Bytes) (hl : own.length = 12) (asks : List KeyAsk) :
    ∃ contract, cidContract own = some contract ∧
      ((∀ a ∈ asks, Spec.levelCount a.topic ≤ 23) →
        ∃ answers, onKeyGen own (some asks) = some (.keys answers) ∧ List.Forall₂ (Spec.AnswersKey contract) asks answers) ∧
      ((∃ a ∈ asks, 23 < Spec.levelCount a.topic) → onKeyGen own (some asks) = some .tooLong) := by
  obtain ⟨c, hc⟩ := contract_of_twelve own hl
  refine ⟨c, hc, fun h => ?_, fun h => ?_⟩
  · obtain ⟨answers, ha, hf⟩ := mapM_answers c asks h
    refine ⟨answers, ?_, hf⟩
    cases asks with
    | nil => simp only [List.mapM_nil, Option.pure_def, Option.some.injEq] at ha; subst ha; rfl
    | cons a as => simp only [onKeyGen, hc, Option.map_some, keyGenLoop_eq, ha, List.nil_append]
  · have hn : (asks.mapM fun a => (generateKey c a.topic (access a.type)).map fun k => (k, a.topic)) = none := by
      obtain ⟨a, ha, hlong⟩ := h
      induction asks with
      | nil => simp at ha
      | cons x xs ih =>
        rw [List.mapM_cons]
        rcases List.mem_cons.1 ha with rfl | ha
        · simp [C52_too_long c a.topic _ hlong]
        · rw [ih ha]
          cases (generateKey c x.topic (access x.type)).map fun k => (k, x.topic) <;> rfl
    cases asks with
    | nil => obtain ⟨_, ha, _⟩ := h; simp at ha
    | cons a as => simp only [onKeyGen, hc, Option.map_some, keyGenLoop_eq, hn, Option.map_none]

/-- Two keys, with the letters "r" and "rw". -/
example : ∃ answers, onKeyGen (newClientID 3 1 0 94) (some [⟨[97], [114]⟩, ⟨"a.b".toUTF8.toList, [114, 119]⟩]) = some (.keys answers) ∧
    answers.length = 2 := by
  obtain ⟨c, _, h, _⟩ := C105_keys (newClientID 3 1 0 94) (by decide) [⟨[97], [114]⟩, ⟨"a.b".toUTF8.toList, [114, 119]⟩]
  obtain ⟨answers, ha, hf⟩ := h (by decide +kernel)
  exact ⟨answers, ha, hf.length_eq.symm⟩

/-- The words of the two requests, hashed, are the constants the server compares with. -/
theorem C105_words (m : Mac) (epoch : UInt32) (own : Bytes) (asks : Option (List KeyAsk)) :
    onSpecialRequest m epoch own "clientid".toUTF8.toList asks = onClientIdRequest m epoch own ∧
      onSpecialRequest m epoch own "keygen".toUTF8.toList asks = onKeyGen own asks := by
  have h1 : serverHash "clientid".toUTF8.toList messageContract = requestClientId := by decide +kernel
  have h2 : serverHash "keygen".toUTF8.toList messageContract = requestKeygen := by decide +kernel
  have h3 : requestKeygen ≠ requestClientId := by decide
  have h4 : "clientid".toUTF8.toList ≠ [] := by decide +kernel
  have h5 : "keygen".toUTF8.toList ≠ [] := by decide +kernel
  constructor
  · simp only [onSpecialRequest, if_neg h4, if_pos h1]
  · simp only [onSpecialRequest, if_neg h5, h2, if_neg h3, if_true]

/-- C105 (violated): rights do not limit what a client can ask for. Every client, with any id, gets a key that is granted any topic. -/
theorem C105_rights_violated (own topic : Bytes) (hl : own.length = 12) (h : Spec.levelCount topic ≤ 23) (ht : topic ≠ [])
    (hs : chSlash ∉ topic) (hq : chQuery ∉ topic) :
    ∃ contract key w, cidContract own = some contract ∧ onKeyGen own (some [⟨topic, [111]⟩]) = some (.keys [(key, topic)]) ∧
      onTopicRequest false contract (Spec.request key topic) = some (.granted w) := by
  obtain ⟨c, hc⟩ := contract_of_twelve own hl
  obtain ⟨text, k, hg, _⟩ := C52_key_opens_topic c topic (access [111]) h
  obtain ⟨w, hw⟩ := (C52_request c topic (access [111]) text hg ht hs hq).2 (by decide)
  exact ⟨c, text, w, hc, by simp [onKeyGen, hc, keyGenLoop, hg], hw⟩

example : (newClientID 3 1 0 94).length = 12 ∧ Spec.levelCount "a.b".toUTF8.toList ≤ 23 ∧ "a.b".toUTF8.toList ≠ [] ∧
    chSlash ∉ "a.b".toUTF8.toList ∧ chQuery ∉ "a.b".toUTF8.toList := by decide +kernel

theorem exchange_replicate {α : Type} (n i j : Nat) (a : α) : Hash.exchange (List.replicate n a) i j = List.replicate n a := by
  unfold Hash.exchange
  split
  · next x y hx hy =>
    have hx' := List.eq_of_mem_replicate (List.mem_of_getElem? hx)
    have hy' := List.eq_of_mem_replicate (List.mem_of_getElem? hy)
    subst hx' hy'
    simp
  · rfl

theorem shuffle_replicate {α : Type} (salt : Nat → Nat) (n i v p : Nat) (a : α) :
    Hash.shuffleLoop salt i v p (List.replicate n a) = List.replicate n a := by
  induction i generalizing v p with
  | zero => rfl
  | succ i ih => simp only [Hash.shuffleLoop, exchange_replicate, ih]

/-- C105 (violated): keys are not tied to a contract. The key for all topics that one client was given grants every topic to the clients of
every other contract. -/
theorem C105_contract_violated (own : Bytes) (hl : own.length = 12) :
    ∃ key, onKeyGen own (some [⟨dots3, [111]⟩]) = some (.keys [(key, dots3)]) ∧
      ∀ (other : UInt32) (topic : Bytes), topic ≠ [] → chSlash ∉ topic → chQuery ∉ topic →
        onTopicRequest false other (Spec.request key topic) = some (.granted true) := by
  obtain ⟨c, hc⟩ := contract_of_twelve own hl
  have hall : ∀ x, serverHash dots3 x = Hash.new dots3 := by
    intro x
    simp only [serverHash, show dots3 = List.replicate 3 46 from rfl, shuffle_replicate, ite_self]
  have hkey : ∀ x, generateKey x dots3 (access [111]) = generateKey 0 dots3 (access [111]) := by
    intro x
    simp only [generateKey, rawKey, keyTarget, hall]
  obtain ⟨text, hg⟩ : ∃ t, generateKey 0 dots3 (access [111]) = some t := ⟨_, rfl⟩
  refine ⟨text, by simp [onKeyGen, hc, keyGenLoop, hkey, hg], fun other topic ht hs hq => ?_⟩
  have hraw : rawKey 0 dots3 (access [111]) = some ((access [111]).toUInt8 :: (be24 0 ++ be32 (Hash.new dots3))) := by decide +kernel
  have e : text = keyEncode ((access [111]).toUInt8 :: (be24 0 ++ be32 (Hash.new dots3))) := by
    rw [generateKey, hraw, Option.map_some, Option.some.injEq] at hg
    exact hg.symm
  have hd := keyDecode_keyEncode ((access [111]).toUInt8 :: (be24 0 ++ be32 (Hash.new dots3))) (by decide +kernel)
  have hne : text ≠ [] := by rw [e]; decide +kernel
  have hp := parseRequest_key_topic text topic hne (by rw [e]; exact key_text_no_slash _) ht hs hq
  have hv : ∀ t, validateTopic ((access [111]).toUInt8 :: (be24 0 ++ be32 (Hash.new dots3))) other t = (true, true) := by
    intro t
    have h1 : be32At ((access [111]).toUInt8 :: (be24 0 ++ be32 (Hash.new dots3))) 4 = some (Hash.new dots3) := by decide +kernel
    have h2 : UInt32.ofNat (leNat ((((((access [111]).toUInt8 :: (be24 0 ++ be32 (Hash.new dots3)))).drop 1).take 3).reverse)) = 0 := by
      decide +kernel
    simp only [validateTopic, h1, h2, hall, Option.getD_some, if_true]
  have hr : hasPermission ((access [111]).toUInt8 :: (be24 0 ++ be32 (Hash.new dots3))) allowRead = true := by decide +kernel
  rw [← e] at hd
  simp only [onTopicRequest, hp, Option.map_some, Bool.not_true, Bool.false_eq_true, if_false, onSecureRequest, hd, hr, hv]

example : (newClientID 3 1 0 94).length = 12 := by decide

end Verif
