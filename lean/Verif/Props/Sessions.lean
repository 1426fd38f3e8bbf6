import Verif.Props.ServerState
import Verif.Props.Credentials

/-! # Subscriptions and sessions (C64, C65, C66) -/

namespace Verif

/-! ## C64: subscriptions -/

/-- An accepted request of a connection. -/
inductive SubReq where
  | sub (t : ReqTopic) (id : Bytes)
  | unsub (t : ReqTopic)
  deriving DecidableEq, Repr

/-- The subscription state after a history (a subscribe that fails changes nothing). -/
def SubReq.run (contract : UInt32) (st : SubState) : List SubReq → SubState
  | [] => st
  | .sub t id :: rs => run contract ((subscribe contract st t id).getD st) rs
  | .unsub t :: rs => run contract (unsubscribe st t) rs

/-- By how many the subscribes to a topic exceed the unsubscribes made while there were any; newest
request first. -/
def Spec.wanted (topic : Bytes) : List SubReq → Nat
  | [] => 0
  | .sub t _ :: older => if t.topic = topic then Spec.wanted topic older + 1 else Spec.wanted topic older
  | .unsub t :: older => if t.topic = topic then Spec.wanted topic older - 1 else Spec.wanted topic older

/-- A connection without subscriptions. -/
def SubState.fresh : SubState := ⟨.new, []⟩

/-- C64 (violated): a connection holding the key of "..." is allowed to subscribe to "a.b" and to "c.d";
after both subscribes have been accepted, nothing is stored for "c.d". -/
theorem C64_shared_key_violated :
    ∃ (contract : UInt32) (key : Bytes) (t1 t2 : ReqTopic),
      generateKey contract dots3 (access [114]) = some key ∧
      parseRequest (Spec.request key "a.b".toUTF8.toList) = some t1 ∧
      parseRequest (Spec.request key "c.d".toUTF8.toList) = some t2 ∧
      onTopicRequest false contract (Spec.request key "a.b".toUTF8.toList) = some (.granted true) ∧
      onTopicRequest false contract (Spec.request key "c.d".toUTF8.toList) = some (.granted true) ∧
      t1.topic ≠ t2.topic ∧
      ∀ id1 id2, (SubReq.run contract .fresh [.sub t1 id1, .sub t2 id2]).stored = [(id1, t1.topic)] := by
  refine ⟨7, (generateKey 7 dots3 (access [114])).getD [],
    (parseRequest (Spec.request ((generateKey 7 dots3 (access [114])).getD []) "a.b".toUTF8.toList)).getD ⟨[], [], 0, false⟩,
    (parseRequest (Spec.request ((generateKey 7 dots3 (access [114])).getD []) "c.d".toUTF8.toList)).getD ⟨[], [], 0, false⟩,
    by decide +kernel, by decide +kernel, by decide +kernel, by decide +kernel, by decide +kernel, by decide +kernel, ?_⟩
  intro id1 id2
  generalize h1 : (parseRequest (Spec.request ((generateKey 7 dots3 (access [114])).getD []) "a.b".toUTF8.toList)).getD ⟨[], [], 0, false⟩ = t1
  generalize h2 : (parseRequest (Spec.request ((generateKey 7 dots3 (access [114])).getD []) "c.d".toUTF8.toList)).getD ⟨[], [], 0, false⟩ = t2
  have hk : t1.key = t2.key ∧ t1.key ≠ [] := by
    rw [← h1, ← h2]; decide +kernel
  have hk1 : ¬ t2.key = [] := hk.1 ▸ hk.2
  simp [SubReq.run, subscribe, subscribeKey, hk.1, hk1, SubState.fresh, SubStats.increment, SubStats.new]

/-- C64 (violated): a subscription made without a key (which an insecure connection may do) is never
removed, however often the client unsubscribes. -/
theorem C64_keyless_violated (contract : UInt32) (text : Bytes) (t : ReqTopic) (hp : parseRequest text = some t)
    (hk : t.key = []) (id : Bytes) (st : SubState) (hs : subscribe contract .fresh t id = some st) (n : Nat) :
    onTopicRequest true contract text = some (.granted false) ∧
      (SubReq.run contract st (List.replicate n (.unsub t))).stored = [(id, t.topic)] := by
  have hv : t.valid = true := by
    simp only [parseRequest] at hp
    split at hp
    · simp at hp
    · simp at hp; subst hp; rfl
    · next key tt rest hf =>
      have hne : key ≠ [] := by
        intro e
        have hmem : key ∈ fields chSlash text := by rw [hf]; exact List.mem_cons_self
        have key_ne : ∀ (cur b : Bytes), ∀ f ∈ fieldsAux chSlash cur b, f ≠ [] := by
          intro cur b
          induction b generalizing cur with
          | nil => cases cur <;> simp [fieldsAux]
          | cons c cs ih =>
            by_cases hc : c = chSlash
            · cases cur with
              | nil => simpa [fieldsAux, hc] using ih []
              | cons d ds =>
                simp only [fieldsAux, hc, if_true]
                intro f hf
                simp at hf
                rcases hf with rfl | hf
                · simp
                · exact ih [] f hf
            · simp only [fieldsAux, hc, if_false]
              exact ih _
        exact key_ne [] text key hmem e
      split at hp <;> simp at hp <;> subst hp <;> exact absurd hk hne
  refine ⟨by simp [onTopicRequest, hp, hv], ?_⟩
  have hgen : ∀ c tp p k, generateKey c tp p = some k → k ≠ [] := by
    intro c tp p k h e
    simp only [generateKey, Option.map_eq_some_iff] at h
    obtain ⟨r, _, h⟩ := h
    have : k.length = 13 := by rw [← h]; simp [keyEncode, TextId.encode8]
    rw [e] at this; simp at this
  simp only [subscribe, subscribeKey, hk, if_true, Option.map_eq_some_iff] at hs
  obtain ⟨k, hkg, hs⟩ := hs
  have hkne := hgen _ _ _ _ hkg
  have hst : st.subs [] = none ∧ st.stored = [(id, t.topic)] := by
    subst hs
    simp only [SubState.fresh, SubStats.increment, SubStats.new]
    simp [Ne.symm hkne]
  clear hs
  induction n generalizing st with
  | zero => simpa [SubReq.run] using hst.2
  | succ n ih =>
    simp only [List.replicate_succ, SubReq.run]
    apply ih
    have : unsubscribe st t = st := by simp only [unsubscribe, SubStats.decrement, hk, hst.1]
    rw [this]; exact hst

example : parseRequest "a.b".toUTF8.toList = some ⟨[], "a.b".toUTF8.toList, 3, true⟩ ∧
    (subscribe 7 .fresh ⟨[], "a.b".toUTF8.toList, 3, true⟩ [1]).isSome = true := by decide +kernel

/-- The requests of a history. -/
def SubReq.topic : SubReq → ReqTopic
  | .sub t _ => t
  | .unsub t => t

/-- The identifiers given to the subscribes of a history. -/
def SubReq.ids : List SubReq → List Bytes
  | [] => []
  | .sub _ id :: rs => id :: ids rs
  | .unsub _ :: rs => ids rs

/-- The invariant behind `C64_partial`, for histories in which `f` gives the topic of a key. -/
structure SubInv (f : Bytes → Bytes) (used : List Bytes) (st : SubState) : Prop where
  stored : ∀ id tp, (id, tp) ∈ st.stored ↔ ∃ k s, st.subs k = some s ∧ s.id = id ∧ tp = f k
  distinct : ∀ k k' s s', st.subs k = some s → st.subs k' = some s' → s.id = s'.id → k = k'
  used : ∀ k s, st.subs k = some s → s.id ∈ used
  pos : ∀ k s, st.subs k = some s → 0 < s.counter

/-- Replacing the record of a key by one with the same identifier. -/
theorem SubInv.update {f : Bytes → Bytes} {used : List Bytes} {st : SubState} (h : SubInv f used st) (key : Bytes) (s s' : SubStat)
    (hs : st.subs key = some s) (hid : s'.id = s.id) (hc : 0 < s'.counter) :
    SubInv f used ⟨fun k => if k = key then some s' else st.subs k, st.stored⟩ := by
  have hex : ∀ k x, (if k = key then some s' else st.subs k) = some x → ∃ y, st.subs k = some y ∧ y.id = x.id ∧ 0 < x.counter := by
    intro k x hx
    split at hx
    · next e => simp only [Option.some.injEq] at hx; subst hx e; exact ⟨s, hs, hid.symm, hc⟩
    · exact ⟨x, hx, rfl, h.pos k x hx⟩
  refine ⟨?_, ?_, ?_, fun k x hx => (hex k x hx).choose_spec.2.2⟩
  · intro id tp
    rw [h.stored]
    constructor
    · rintro ⟨k, x, hx, he, rfl⟩
      by_cases hk : k = key
      · subst hk
        rw [hs, Option.some.injEq] at hx; subst hx
        exact ⟨k, s', if_pos rfl, hid.trans he, rfl⟩
      · exact ⟨k, x, by rw [← hx]; exact if_neg hk, he, rfl⟩
    · rintro ⟨k, x, hx, he, rfl⟩
      obtain ⟨y, hy, hyi, _⟩ := hex k x hx
      exact ⟨k, y, hy, hyi.trans he, rfl⟩
  · intro k k' x x' hx hx' he
    obtain ⟨y, hy, hyi, _⟩ := hex k x hx
    obtain ⟨y', hy', hyi', _⟩ := hex k' x' hx'
    exact h.distinct k k' y y' hy hy' (by rw [hyi, hyi', he])
  · intro k x hx
    obtain ⟨y, hy, hyi, _⟩ := hex k x hx
    rw [← hyi]; exact h.used k y hy

/-- Opening a key with a new identifier. -/
theorem SubInv.insert {f : Bytes → Bytes} {used : List Bytes} {st : SubState} (h : SubInv f used st) (key : Bytes) (s : SubStat)
    (hs : st.subs key = none) (hid : s.id ∉ used) (hc : 0 < s.counter) :
    SubInv f (s.id :: used) ⟨fun k => if k = key then some s else st.subs k, (s.id, f key) :: st.stored⟩ := by
  refine ⟨?_, ?_, ?_, ?_⟩
  · intro i tp
    simp only [List.mem_cons, Prod.mk.injEq, h.stored]
    constructor
    · rintro (⟨rfl, rfl⟩ | ⟨k, x, hx, he, rfl⟩)
      · exact ⟨key, s, if_pos rfl, rfl, rfl⟩
      · refine ⟨k, x, ?_, he, rfl⟩
        rw [if_neg]
        · exact hx
        · rintro rfl; rw [hs] at hx; simp at hx
    · rintro ⟨k, x, hx, he, rfl⟩
      split at hx
      · next e => simp only [Option.some.injEq] at hx; subst hx e; exact Or.inl ⟨he.symm, rfl⟩
      · exact Or.inr ⟨k, x, hx, he, rfl⟩
  · intro k k' x x' h1 h2 he
    simp only at h1 h2
    split at h1 <;> split at h2
    · next e1 e2 => rw [e1, e2]
    · simp only [Option.some.injEq] at h1; subst h1
      exact absurd (by rw [he]; exact h.used _ _ h2) hid
    · simp only [Option.some.injEq] at h2; subst h2
      exact absurd (by rw [← he]; exact h.used _ _ h1) hid
    · exact h.distinct k k' x x' h1 h2 he
  · intro k x hx
    simp only at hx
    split at hx
    · simp only [Option.some.injEq] at hx; subst hx; exact List.mem_cons_self
    · exact List.mem_cons_of_mem _ (h.used k x hx)
  · intro k x hx
    simp only at hx
    split at hx
    · simp only [Option.some.injEq] at hx; subst hx; exact hc
    · exact h.pos k x hx

/-- Closing a key. -/
theorem SubInv.remove {f : Bytes → Bytes} {used : List Bytes} {st : SubState} (h : SubInv f used st) (key : Bytes) (s : SubStat)
    (hs : st.subs key = some s) :
    SubInv f used ⟨fun k => if k = key then none else st.subs k, st.stored.filter (·.1 != s.id)⟩ := by
  have hex : ∀ k x, (if k = key then none else st.subs k) = some x ↔ k ≠ key ∧ st.subs k = some x := by
    intro k x; split <;> simp_all
  refine ⟨?_, ?_, ?_, ?_⟩
  · intro i tp
    simp only [List.mem_filter, h.stored, bne_iff_ne, ne_eq, hex]
    constructor
    · rintro ⟨⟨k, x, hx, he, rfl⟩, hne⟩
      refine ⟨k, x, ⟨?_, hx⟩, he, rfl⟩
      rintro rfl
      rw [hs, Option.some.injEq] at hx; subst hx
      exact hne he.symm
    · rintro ⟨k, x, ⟨hk, hx⟩, he, rfl⟩
      exact ⟨⟨k, x, hx, he, rfl⟩, fun e => hk (h.distinct k key x s hx hs (he.trans e))⟩
  · intro k k' x x' h1 h2 he
    exact h.distinct k k' x x' ((hex _ _).mp h1).2 ((hex _ _).mp h2).2 he
  · intro k x hx; exact h.used k x ((hex _ _).mp hx).2
  · intro k x hx; exact h.pos k x ((hex _ _).mp hx).2

theorem SubInv.mono {f : Bytes → Bytes} {used used' : List Bytes} {st : SubState} (h : SubInv f used st) (hs : ∀ x ∈ used, x ∈ used') :
    SubInv f used' st := ⟨h.stored, h.distinct, fun k s hk => hs _ (h.used k s hk), h.pos⟩

theorem SubInv.subscribe {f : Bytes → Bytes} {used : List Bytes} {st : SubState} (h : SubInv f used st) (contract : UInt32)
    (t : ReqTopic) (id : Bytes) (hk : t.key ≠ []) (hf : f t.key = t.topic) (hid : id ∉ used) :
    SubInv f (id :: used) ((Verif.subscribe contract st t id).getD st) := by
  simp only [Verif.subscribe, subscribeKey, if_neg hk, Option.map_some, Option.getD_some]
  rcases hs : st.subs t.key with _ | s
  · have := h.insert t.key ⟨id, t.topic.take t.size, 0 + 1⟩ hs hid (by simp)
    rw [hf] at this
    simpa [SubStats.increment, hs] using this
  · have hp := h.pos _ _ hs
    have := h.update t.key s ⟨s.id, s.topic, s.counter + 1⟩ hs rfl (by simp only; omega)
    have hne : ¬ s.counter + 1 = 1 := by omega
    have := this.mono (fun x hx => List.mem_cons_of_mem id hx)
    simpa [SubStats.increment, hs, hne] using this

theorem SubInv.unsubscribe {f : Bytes → Bytes} {used : List Bytes} {st : SubState} (h : SubInv f used st) (t : ReqTopic) :
    SubInv f used (Verif.unsubscribe st t) := by
  simp only [Verif.unsubscribe, SubStats.decrement]
  rcases hs : st.subs t.key with _ | s
  · exact h
  · by_cases hc : s.counter - 1 ≤ 0
    · simpa [hc] using h.remove t.key s hs
    · simpa [hc] using h.update t.key s ⟨s.id, s.topic, s.counter - 1⟩ hs rfl (by simp only; omega)

/-- What the subscribe and unsubscribe requests do to the counts. -/
def SubReq.op : SubReq → SubOp
  | .sub t id => .sub (t.topic.take t.size) t.key id
  | .unsub t => .unsub t.key

theorem SubReq.run_subs (contract : UInt32) (rs : List SubReq) (hk : ∀ r ∈ rs, r.topic.key ≠ []) (st : SubState) :
    (run contract st rs).subs = SubOp.run st.subs (rs.map SubReq.op) := by
  induction rs generalizing st with
  | nil => rfl
  | cons r rs ih =>
    have hk' : ∀ r ∈ rs, r.topic.key ≠ [] := fun x hx => hk x (List.mem_cons_of_mem _ hx)
    have h0 := hk r List.mem_cons_self
    cases r with
    | sub t id =>
      simp only [SubReq.topic] at h0
      simp only [run, List.map_cons, SubReq.op, SubOp.run]
      rw [ih hk']
      simp [subscribe, subscribeKey, h0]
    | unsub t =>
      simp only [run, List.map_cons, SubReq.op, SubOp.run]
      rw [ih hk']
      congr 1
      simp only [unsubscribe]
      split <;> simp_all

theorem SubReq.run_inv (contract : UInt32) (f : Bytes → Bytes) (rs : List SubReq) (hk : ∀ r ∈ rs, r.topic.key ≠ [])
    (hf : ∀ r ∈ rs, f r.topic.key = r.topic.topic) (used : List Bytes) (hd : (SubReq.ids rs).Nodup)
    (hu : ∀ i ∈ SubReq.ids rs, i ∉ used) (st : SubState) (h : SubInv f used st) :
    ∃ used', SubInv f used' (run contract st rs) := by
  induction rs generalizing st used with
  | nil => exact ⟨used, h⟩
  | cons r rs ih =>
    have hk' : ∀ r ∈ rs, r.topic.key ≠ [] := fun x hx => hk x (List.mem_cons_of_mem _ hx)
    have hf' : ∀ r ∈ rs, f r.topic.key = r.topic.topic := fun x hx => hf x (List.mem_cons_of_mem _ hx)
    cases r with
    | sub t id =>
      simp only [SubReq.ids, List.nodup_cons] at hd
      refine ih hk' hf' (id :: used) hd.2 ?_ _
        (h.subscribe contract t id (hk _ List.mem_cons_self) (hf _ List.mem_cons_self) (hu id (by simp [SubReq.ids])))
      intro i hi
      simp only [List.mem_cons, not_or]
      exact ⟨fun e => hd.1 (e ▸ hi), hu i (by simp [SubReq.ids, hi])⟩
    | unsub t => exact ih hk' hf' used hd hu _ (h.unsubscribe t)

/-- C64, what does hold: if every request carries a key, no two topics share a key and no topic is used
with two keys, then — the identifiers of the subscribes being distinct — a subscription to a topic is
stored exactly while its subscribes outnumber its unsubscribes. -/
theorem C64_partial (contract : UInt32) (rs : List SubReq) (hk : ∀ r ∈ rs, r.topic.key ≠ [])
    (hone : ∀ r ∈ rs, ∀ r' ∈ rs, r.topic.key = r'.topic.key ↔ r.topic.topic = r'.topic.topic) (hd : (SubReq.ids rs).Nodup)
    (r : SubReq) (hr : r ∈ rs) :
    (∃ id, (id, r.topic.topic) ∈ (SubReq.run contract .fresh rs).stored) ↔ 0 < Spec.wanted r.topic.topic rs.reverse := by
  let f : Bytes → Bytes := fun k => ((rs.find? (·.topic.key == k)).map (·.topic.topic)).getD []
  have hf : ∀ x ∈ rs, f x.topic.key = x.topic.topic := by
    intro x hx
    simp only [f]
    cases hfd : rs.find? (·.topic.key == x.topic.key) with
    | none => exact absurd (List.find?_eq_none.mp hfd x hx) (by simp)
    | some y =>
      have h1 := List.find?_some hfd
      have h2 := List.mem_of_find?_eq_some hfd
      simp only [beq_iff_eq] at h1
      exact (hone y h2 x hx).mp h1
  obtain ⟨used, hinv⟩ := SubReq.run_inv contract f rs hk hf [] hd (by simp) .fresh
    ⟨by simp [SubState.fresh, SubStats.new], by simp [SubState.fresh, SubStats.new], by simp [SubState.fresh, SubStats.new],
      by simp [SubState.fresh, SubStats.new]⟩
  have hsubs := SubReq.run_subs contract rs hk .fresh
  -- the count of the key is the count of the topic
  have hcount : ∀ ls : List SubReq, (∀ x ∈ ls, x ∈ rs) →
      (Spec.subCount r.topic.key (ls.map SubReq.op)).1 = Spec.wanted r.topic.topic ls := by
    intro ls
    induction ls with
    | nil => intro _; rfl
    | cons x ls ih =>
      intro hm
      have ih := ih (fun y hy => hm y (List.mem_cons_of_mem _ hy))
      have hx := hone x (hm x List.mem_cons_self) r hr
      cases x with
      | sub t id =>
        change t.key = r.topic.key ↔ t.topic = r.topic.topic at hx
        simp only [List.map_cons, SubReq.op, Spec.subCount, Spec.wanted]
        by_cases e : t.topic = r.topic.topic
        · simp [hx.mpr e, e, ih]
        · simp [mt hx.mp e, e, ih]
      | unsub t =>
        change t.key = r.topic.key ↔ t.topic = r.topic.topic at hx
        simp only [List.map_cons, SubReq.op, Spec.subCount, Spec.wanted]
        by_cases e : t.topic = r.topic.topic
        · simp [hx.mpr e, e, ih]
        · simp [mt hx.mp e, e, ih]
  have hpres := C53_present (rs.map SubReq.op) r.topic.key
  rw [← List.map_reverse, hcount _ (fun x hx => List.mem_reverse.mp hx)] at hpres
  rw [← hpres, SubStats.exists, Option.isSome_iff_exists]
  have hfresh : SubState.fresh.subs = SubStats.new := rfl
  rw [hfresh] at hsubs
  rw [← hsubs]
  constructor
  · rintro ⟨id, hid⟩
    obtain ⟨k, s, hs, _, htp⟩ := (hinv.stored _ _).mp hid
    -- the key was used in the history, or its topic is that of `r` anyway
    have hused : ∃ x ∈ rs, x.topic.key = k := by
      have hp := (C53_present (rs.map SubReq.op) k).mp (by
        simp only [SubStats.exists]; rw [hsubs] at hs; rw [hs]; rfl)
      rw [← List.map_reverse] at hp
      have : ∀ ls : List SubReq, 0 < (Spec.subCount k (ls.map SubReq.op)).1 → ∃ x ∈ ls, x.topic.key = k := by
        intro ls
        induction ls with
        | nil => intro h; simp [Spec.subCount] at h
        | cons x ls ih =>
          intro h
          by_cases e : x.topic.key = k
          · exact ⟨x, List.mem_cons_self, e⟩
          · obtain ⟨y, hy, hye⟩ := ih (by
              cases x with
              | sub t id =>
                simp only [SubReq.topic] at e
                simp only [List.map_cons, SubReq.op, Spec.subCount, if_neg e] at h
                exact h
              | unsub t =>
                simp only [SubReq.topic] at e
                simp only [List.map_cons, SubReq.op, Spec.subCount, if_neg e] at h
                exact h)
            exact ⟨y, List.mem_cons_of_mem _ hy, hye⟩
      obtain ⟨x, hx, hxe⟩ := this _ hp
      exact ⟨x, List.mem_reverse.mp hx, hxe⟩
    obtain ⟨x, hx, rfl⟩ := hused
    rw [hf x hx] at htp
    have := (hone r hr x hx).mpr htp
    rw [this]
    exact ⟨s, hs⟩
  · rintro ⟨s, hs⟩
    exact ⟨s.id, (hinv.stored _ _).mpr ⟨_, s, hs, rfl, (hf r hr).symm⟩⟩

example : let t1 : ReqTopic := ⟨[1], [97], 1, true⟩
    let t2 : ReqTopic := ⟨[2], [98], 1, true⟩
    (SubReq.run 7 .fresh [.sub t1 [10], .sub t2 [11], .sub t1 [12], .unsub t2, .unsub t1]).stored = [([10], [97])] := by decide

/-! ## C65: sessions -/

/-- The published messages stored for a session, as message ids. -/
def Spec.storedPublishes (read : Bytes → Option LogPacket) (l : LogMap) (sess : UInt32) (mid : UInt16) : Prop :=
  ∃ k raw, l.get k = some raw ∧ inBlock sess k = true ∧ read raw = some (.publish mid)

theorem inBlock_bit (s : UInt32) (k : UInt64) (h : inBlock s k = true) : (k &&& 16 = 0) ↔ s &&& 16 = 0 := by
  simp only [inBlock, beq_iff_eq] at h
  have e : k &&& 16 = s.toUInt64 &&& 16 := by
    rw [h, UInt64.and_assoc]; rfl
  rw [e, ← UInt64.toNat_inj, ← UInt32.toNat_inj, UInt64.toNat_and, UInt32.toNat_and, UInt32.toNat_toUInt64]
  rfl

/-- `resume` on a session whose number has bit 4 clear: nothing of another kind is touched, and every
publish is announced. -/
theorem resume_announces (read : Bytes → Option LogPacket) (l : LogMap) (sess : UInt32) (hb : sess &&& 16 = 0)
    (mid : UInt16) (h : Spec.storedPublishes read l sess mid) : mid ∈ (resume read l sess).1 := by
  obtain ⟨k, raw, hg, hin, hrd⟩ := h
  have hk : k ∈ l.keysOf sess := by
    simp only [LogMap.keysOf, List.mem_filter]
    exact ⟨(LogMap.mem_keys l k).mpr (by rw [hg]; rfl), hin⟩
  have hall : ∀ x ∈ l.keysOf sess, inBlock sess x = true := fun x hx => (List.mem_filter.mp hx).2
  unfold resume
  revert hall hk
  generalize l.keysOf sess = ks
  intro hk hall
  have key : ∀ (ks : List UInt64), (∀ x ∈ ks, inBlock sess x = true) → ∀ acc : List UInt16 × LogMap, acc.2.get k = some raw →
      (k ∈ ks ∨ mid ∈ acc.1) →
      mid ∈ (ks.foldl (fun (acc : List UInt16 × LogMap) k =>
        match (acc.2.get k).bind read with
        | none => acc
        | some p => if k &&& 16 = 0 then
            match p with
            | .publish mid => (acc.1 ++ [mid], acc.2)
            | .other => (acc.1, acc.2.delete k)
          else (acc.1, acc.2.delete k)) acc).1 := by
    intro ks
    induction ks with
    | nil => intro _ acc _ h; simpa using h
    | cons x ks ih =>
      intro hall acc hacc h
      rw [List.foldl_cons]
      have hx := (inBlock_bit sess x (hall x List.mem_cons_self)).mpr hb
      have hall' : ∀ y ∈ ks, inBlock sess y = true := fun y hy => hall y (List.mem_cons_of_mem _ hy)
      by_cases hxk : x = k
      · subst hxk
        simp only [hacc, Option.bind_some, hrd, hx, if_true]
        exact ih hall' _ hacc (Or.inr (by simp))
      · have h' : k ∈ ks ∨ mid ∈ acc.1 := by
          rcases h with h | h
          · rcases List.mem_cons.mp h with e | h
            · exact absurd e.symm hxk
            · exact Or.inl h
          · exact Or.inr h
        cases hp : (acc.2.get x).bind read with
        | none => exact ih hall' _ hacc h'
        | some p =>
          simp only [hx, if_true]
          cases p with
          | publish m =>
            exact ih hall' _ hacc (h'.imp id fun h => List.mem_append_left _ h)
          | other =>
            refine ih hall' _ ?_ h'
            rw [LogMap.get_delete, if_neg (Ne.symm hxk)]; exact hacc
  exact key ks hall ([], l) hg (Or.inl hk)

/-- C65, what does hold: a client that connects with a session key whose record names a session with bit 4
clear, and does not ask for a clean session, is notified of every published message stored for that
session. -/
theorem C65_resume_partial (read : Bytes → Option LogPacket) (l : LogMap) (lid asked epoch sess : UInt32)
    (hrec : l.get (sessionKey asked epoch) = some (sessionRecord sess)) (hb : sess &&& 16 = 0) :
    ∃ l' ids notes, connectSession read l lid asked epoch false = some (l', ids, notes) ∧ ids.sessID = sess ∧
      ∀ mid, Spec.storedPublishes read l sess mid → mid ∈ notes := by
  have hs : sessionOf (sessionRecord sess) = some sess := by
    have h1 : (sessionRecord sess).length = 4 := by simp [sessionRecord]
    have h2 : (sessionRecord sess).take 4 = sessionRecord sess := List.take_of_length_le (by omega)
    simp only [sessionOf, h1, Nat.lt_irrefl, if_false, h2]
    simp only [sessionRecord, leNat_leBytes]
    rw [Nat.mod_eq_of_lt (by have := sess.toNat_lt; omega)]
    simp
  simp only [connectSession, hrec, hs, Option.map_some]
  exact ⟨_, _, _, rfl, rfl, fun mid h => resume_announces read l sess hb mid h⟩

/-- C65: a client that asks for a clean session is notified of nothing, and nothing stays stored for the session its key named, apart
from the records of the new connection. -/
theorem C65_clean_session (read : Bytes → Option LogPacket) (l : LogMap) (lid asked epoch sess : UInt32)
    (hrec : l.get (sessionKey asked epoch) = some (sessionRecord sess)) :
    ∃ l' ids, connectSession read l lid asked epoch true = some (l', ids, []) ∧
      ∀ k, inBlock sess k = true → k ≠ sessionKey asked epoch → k ≠ epoch.toUInt64 → l'.get k = none := by
  have hs : sessionOf (sessionRecord sess) = some sess := by
    have h1 : (sessionRecord sess).length = 4 := by simp [sessionRecord]
    have h2 : (sessionRecord sess).take 4 = sessionRecord sess := List.take_of_length_le (by omega)
    simp only [sessionOf, h1, Nat.lt_irrefl, if_false, h2]
    simp only [sessionRecord, leNat_leBytes]
    rw [Nat.mod_eq_of_lt (by have := sess.toNat_lt; omega)]
    simp
  simp only [connectSession, hrec, hs, Option.map_some]
  refine ⟨_, _, rfl, ?_⟩
  intro k hk h1 h2
  simp only [if_true]
  split
  · rw [LogMap.get_put, if_neg h2, LogMap.get_put, if_neg h1, LogMap.get_reset, if_pos hk]
  · rw [LogMap.get_put, if_neg h1, LogMap.get_reset, if_pos hk]

example : inBlock 1 (packetKey 7 1) = true ∧ packetKey 7 1 ≠ sessionKey 0 100 ∧ packetKey 7 1 ≠ (100 : UInt32).toUInt64 := by decide

/-- C65 (violated): resuming a session whose number has bit 4 set announces nothing and deletes what was
stored for it. -/
theorem C65_bit4_violated (read : Bytes → Option LogPacket) (l : LogMap) (sess : UInt32) (hb : sess &&& 16 ≠ 0) :
    (resume read l sess).1 = [] ∧ ∀ mid, ¬ Spec.storedPublishes read (resume read l sess).2 sess mid := by
  have hall : ∀ x ∈ l.keysOf sess, inBlock sess x = true := fun x hx => (List.mem_filter.mp hx).2
  have key : ∀ (ks : List UInt64), (∀ x ∈ ks, inBlock sess x = true) → ∀ acc : List UInt16 × LogMap, acc.1 = [] →
      (∀ k raw p, acc.2.get k = some raw → inBlock sess k = true → read raw = some p → k ∈ ks) →
      let r := (ks.foldl (fun (acc : List UInt16 × LogMap) k =>
        match (acc.2.get k).bind read with
        | none => acc
        | some p => if k &&& 16 = 0 then
            match p with
            | .publish mid => (acc.1 ++ [mid], acc.2)
            | .other => (acc.1, acc.2.delete k)
          else (acc.1, acc.2.delete k)) acc)
      r.1 = [] ∧ ∀ k raw p, r.2.get k = some raw → inBlock sess k = true → ¬ read raw = some p := by
    intro ks
    induction ks with
    | nil =>
      intro _ acc h1 h2
      exact ⟨h1, fun k raw p hk hin hr => by simpa using h2 k raw p hk hin hr⟩
    | cons x ks ih =>
      intro hall acc h1 h2
      rw [List.foldl_cons]
      have hx : ¬ x &&& 16 = 0 := fun e => hb ((inBlock_bit sess x (hall x List.mem_cons_self)).mp e)
      have hall' : ∀ y ∈ ks, inBlock sess y = true := fun y hy => hall y (List.mem_cons_of_mem _ hy)
      cases hp : (acc.2.get x).bind read with
      | none =>
        refine ih hall' acc h1 fun k raw p hk hin hr => ?_
        rcases List.mem_cons.mp (h2 k raw p hk hin hr) with rfl | hm
        · simp [hk, hr] at hp
        · exact hm
      | some p0 =>
        simp only [hx, if_false]
        refine ih hall' _ h1 fun k raw p hk hin hr => ?_
        rw [LogMap.get_delete] at hk
        split at hk
        · simp at hk
        · next hne =>
          rcases List.mem_cons.mp (h2 k raw p hk hin hr) with rfl | hm
          · exact absurd rfl hne
          · exact hm
  have := key (l.keysOf sess) hall ([], l) rfl (by
    intro k raw p hk hin _
    simp only [LogMap.keysOf, List.mem_filter]
    exact ⟨(LogMap.mem_keys l k).mpr (by simp only at hk; rw [hk]; rfl), hin⟩)
  refine ⟨this.1, ?_⟩
  rintro mid ⟨k, raw, hk, hin, hr⟩
  exact this.2 k raw _ hk hin hr

/-- A reader of one-byte messages, for the examples: message `[m]` is a publish with id `m`. -/
def toyRead : Bytes → Option LogPacket
  | [m] => some (.publish m.toUInt16)
  | _ => none

example : (16 : UInt32) &&& 16 ≠ 0 ∧ Spec.storedPublishes toyRead [(packetKey 7 16, [7])] 16 7 :=
  ⟨by decide, packetKey 7 16, [7], by decide, by decide, by decide⟩

/-- C65 (violated): a client connects three times with the same session key (connections 1, 2, 3). A message
stored for the session of its second connection is not announced to the third, and is still stored. -/
theorem C65_third_connect_violated :
    ∃ (l1 l2 l3 : LogMap) (c1 c2 c3 : ConnIds) (n1 n2 n3 : List UInt16),
      connectSession toyRead [] 1 0 100 false = some (l1, c1, n1) ∧
      connectSession toyRead l1 2 0 100 false = some (l2, c2, n2) ∧
      connectSession toyRead (l2.persist c2.sessID 7 [7]) 3 0 100 false = some (l3, c3, n3) ∧
      n3 = [] ∧ l3.get (packetKey 7 c2.sessID) = some [7] ∧ c3.sessID ≠ c2.sessID := by
  refine ⟨_, _, _, _, _, _, _, _, _, rfl, rfl, rfl, ?_, ?_, ?_⟩ <;> decide

/-! ## C66: session records and packets -/

/-- C66 (violated): clearing the packets of connection `k` deletes the record of the client whose session
key is `k`, whichever client and connection they belong to. -/
theorem C66_reset_deletes_session_violated (l : LogMap) (k epoch : UInt32) (hk : k ≠ 0) (raw : Bytes)
    (_h : l.get (sessionKey k epoch) = some raw) : (l.reset k).get (sessionKey k epoch) = none := by
  have hin : inBlock k (sessionKey k epoch) = true := by
    have h2 := k.toNat_lt
    simp only [inBlock, sessionKey, beq_iff_eq, ne_eq, hk, not_false_eq_true, if_true]
    split
    · rw [← UInt64.toNat_inj, UInt64.toNat_and, UInt32.toNat_toUInt64, show (0xFFFFFFFF : UInt64).toNat = 2 ^ 32 - 1 by decide,
        Nat.and_two_pow_sub_one_eq_mod]
      omega
    · rw [← UInt64.toNat_inj, UInt64.toNat_and, UInt64.toNat_or, UInt32.toNat_toUInt64,
        show (0xFFFFFFFF : UInt64).toNat = 2 ^ 32 - 1 by decide, Nat.and_two_pow_sub_one_eq_mod,
        show (0xFFFFFFFF00000000 : UInt64).toNat = 2 ^ 32 * (2 ^ 32 - 1) by decide]
      rw [Nat.or_mod_two_pow]
      simp only [Nat.mul_mod_right, Nat.or_zero]
      omega
  rw [LogMap.get_reset, if_pos hin]

example : LogMap.get [(sessionKey 5 100, sessionRecord 9)] (sessionKey 5 100) = some (sessionRecord 9) := by decide

/-- C66, what does hold: clearing the packets of a connection keeps every session record whose key has
other low bits. -/
theorem C66_partial (l : LogMap) (k asked epoch : UInt32) (h : inBlock k (sessionKey asked epoch) = false) :
    (l.reset k).get (sessionKey asked epoch) = l.get (sessionKey asked epoch) := by
  rw [LogMap.get_reset, h]; rfl

example : inBlock 6 (sessionKey 5 100) = false := by decide

end Verif
