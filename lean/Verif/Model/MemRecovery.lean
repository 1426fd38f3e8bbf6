import Verif.Model.MemDbInv

/-!
# Recovery of the in-memory store

Model of memdb/recovery.go:81-185 `startRecovery`, run by memdb/db.go:48-107 `Open` before the first tiny log is
made. Logs come in the order of the directory listing (by modification time, modelled in `Wal`), each with one
record as `tinyWrite` writes them. Map iteration orders are parameters.
-/

namespace Verif

/-- What recovery takes from its surroundings: the log interval, the bytes after the log in the read buffer (Go slices
reach into them), and the iteration orders of the two maps. -/
structure RecEnv where
  interval : Int
  extra : Bytes
  orderLog : AMap UInt64 Bytes → List (UInt64 × Bytes)
  orderDel : AMap Int (List UInt64) → List (Int × List UInt64)

/-- Seconds from the zero time of Go to 1970, in nanoseconds (time.Truncate rounds since the zero time). -/
def goZeroTime : Int := 62135596800 * 1000000000

/-- `time.Unix(0, t).UTC().Truncate(d).UnixNano()`. -/
def truncTime (d t : Int) : Int := if d ≤ 0 then t else t - (t + goZeroTime) % d

theorem truncTime_mono (d : Int) {t t' : Int} (h : t ≤ t') : truncTime d t ≤ truncTime d t' := by
  simp only [truncTime]
  split
  · exact h
  · next hd =>
    have h1 := Int.mul_ediv_add_emod (t + goZeroTime) d
    have h2 := Int.mul_ediv_add_emod (t' + goZeroTime) d
    have h3 : (t + goZeroTime) / d ≤ (t' + goZeroTime) / d := Int.ediv_le_ediv (by omega) (by omega)
    have h4 : d * ((t + goZeroTime) / d) ≤ d * ((t' + goZeroTime) / d) := Int.mul_le_mul_of_nonneg_left h3 (by omega)
    omega

/-- One record of a log. -/
inductive LogRec where
  | put (key : UInt64) (d : Bytes)
  | del (ref : Int) (key : UInt64)
deriving DecidableEq, Repr

/-- memdb/recovery.go:106-124: the records of a log, `none` is a panic. The first argument bounds the steps; the length of
the log is enough since every record takes 13 bytes. -/
def parseLog (extra : Bytes) : Nat → Bytes → Option (List LogRec)
  | _, [] => some []
  | 0, _ :: _ => none
  | n + 1, b :: bs =>
    let w := b :: bs ++ extra
    (get32 w 0).bind fun dataLen =>
    (slice? w 4 dataLen.toNat).bind fun data =>
    if data.length < 9 then none else
    (get64 data 1).bind fun key =>
    (if data.head? = some 1 then (get64 (w.drop 13) 0).map fun ref => LogRec.del ref.toInt64.toInt key
      else some (LogRec.put key (data.drop 9))).bind fun r =>
    (parseLog extra n ((b :: bs).drop dataLen.toNat)).map (r :: ·)

/-- The puts of a log: the last value of every key. -/
def logPuts (rs : List LogRec) : AMap UInt64 Bytes :=
  rs.foldl (fun m r => match r with | .put k d => m.set k d | .del _ _ => m) []

/-- The deletes collected over all logs (memdb/recovery.go:114-120). -/
def addDels (m : AMap Int (List UInt64)) (rs : List LogRec) : AMap Int (List UInt64) :=
  rs.foldl (fun m r => match r with | .put _ _ => m | .del t k => m.set t ((m.get t).getD [] ++ [k])) m

/-- memdb/recovery.go:132-149: the puts of a log into its block. -/
def MemDb.recPuts (e : MEnv) (s : MemDb) (t : Int) : List (UInt64 × Bytes) → MemDb × MOut
  | [] => (s, .ok)
  | (k, d) :: kvs => match s.putAt e t k d with
    | (s, .ok) => s.recPuts e t kvs
    | r => r

/-- memdb/recovery.go:91-155: one log. `cur` has no meaning before the first tiny log; it holds the time id of the log
being recovered. The reference of the log and the release of the time mark come last. -/
def MemDb.recLog (e : MEnv) (r : RecEnv) (s : MemDb) (dels : AMap Int (List UInt64)) (id : Int) (data : Bytes) :
    Option (MemDb × AMap Int (List UInt64) × MOut) :=
  (parseLog r.extra data.length data).map fun rs =>
    let t := truncTime r.interval id
    let dels := addDels dels rs
    match (s.rotate t).recPuts e t (r.orderLog (logPuts rs)) with
    | (s, .ok) =>
      let s := match s.blocks.get t with
        | some a => s.setAt a { s.at a with timeRefs := (s.at a).timeRefs ++ [id] }
        | none => s
      ({ s with mark := s.mark.release t }, dels, .ok)
    | (s, o) => (s, dels, o)

/-- memdb/recovery.go:88-158: all logs; an error ends the iteration and is dropped. -/
def MemDb.recLogs (e : MEnv) (r : RecEnv) : MemDb → AMap Int (List UInt64) → List (Int × Bytes) → Option (MemDb × AMap Int (List UInt64) × MOut)
  | s, dels, [] => some (s, dels, .ok)
  | s, dels, (id, data) :: logs =>
    (s.recLog e r dels id data).bind fun x =>
      match x with
      | (s, dels, .ok) => s.recLogs e r dels logs
      | (s, dels, o) => some (s, dels, o)

/-- memdb/recovery.go:62-70, 166-176: the key leaves the block; a block without records is given back. -/
def MemDb.recDrop (s : MemDb) (t : Int) (a : Nat) (key : UInt64) : MemDb :=
  let b := { s.at a with records := (s.at a).records.del ⟨false, key⟩, count := (s.at a).count - 1 }
  let s := s.setAt a b
  if b.records = [] then { s with blocks := s.blocks.del t, freed := a :: s.freed } else s

/-- memdb/recovery.go:30-77 `delete`: the search is the one of `Delete`. -/
def MemDb.recDelete (e : MEnv) (s : MemDb) (key : UInt64) : MemDb :=
  match s.find e key with
  | none => s
  | some (t, a) => s.recDrop t a key

/-- memdb/recovery.go:160-182: the deletes of one time id. The block is looked up once, before its keys. -/
def MemDb.recDels (e : MEnv) (s : MemDb) (ref : Int) (keys : List UInt64) : MemDb :=
  match s.blocks.get ref with
  | some a => keys.foldl (fun s key => if ((s.at a).records.get ⟨false, key⟩).isSome then s.recDrop ref a key else s) s
  | none => keys.foldl (fun s key => s.recDelete e key) s

/-- `cur` before the first log; it has no meaning in the code. -/
def firstTime (r : RecEnv) (logs : List (Int × Bytes)) (now : Int) : Int :=
  match logs with
  | [] => now
  | l :: _ => truncTime r.interval l.1

/-- memdb/recovery.go:81-185 `startRecovery` on an empty store, then the first tiny log at time `now`
(memdb/db.go:93-104). `none` is a panic. -/
def MemDb.recover (e : MEnv) (r : RecEnv) (logs : List (Int × Bytes)) (now : Int) : Option (MemDb × MOut) :=
  (MemDb.recLogs e r { cur := firstTime r logs now } [] logs).map fun x =>
    (((r.orderDel x.2.1).foldl (fun s p => s.recDels e p.1 p.2) x.1).rotate now, x.2.2)

/-! ## Reading the records that were written -/

/-- The bytes of a log record as `put`, `move` and `delete` write it. -/
def LogRec.enc : LogRec → MKey × Bytes
  | .put k d => (⟨false, k⟩, d)
  | .del ref k => (⟨true, k⟩, put64 (UInt64.ofInt ref))

/-- Records that fit the format. -/
def LogRec.fits : LogRec → Prop
  | .put _ d => d.length + 13 < 2 ^ 32
  | .del ref _ => -2 ^ 63 ≤ ref ∧ ref < 2 ^ 63

theorem toInt_ofInt64 (x : Int) (h1 : -2 ^ 63 ≤ x) (h2 : x < 2 ^ 63) : (UInt64.ofInt x).toInt64.toInt = x := by
  have : (UInt64.ofInt x).toInt64 = Int64.ofInt x := by
    apply Int64.toBitVec.inj
    show (UInt64.ofInt x).toBitVec = BitVec.ofInt 64 x
    apply BitVec.eq_of_toNat_eq
    simp [UInt64.ofInt, BitVec.toNat_ofInt]
    omega
  rw [this, Int64.toInt_ofInt_of_le (by simpa using h1) (by simpa using h2)]

theorem parse_written (extra : Bytes) (rs : List LogRec) (h : ∀ r ∈ rs, r.fits) (n : Nat) (hn : (rs.flatMap fun r => encRec r.enc).length ≤ n) :
    parseLog extra n (rs.flatMap fun r => encRec r.enc) = some rs := by
  induction rs generalizing n with
  | nil => cases n <;> rfl
  | cons r rs ih =>
    have hr := h r List.mem_cons_self
    have hsz : r.enc.2.length + 13 < 2 ^ 32 := by
      cases r with
      | put k d => exact hr
      | del t k => simp [LogRec.enc]
    rw [List.flatMap_cons] at hn ⊢
    have hlen := length_encRec r.enc
    rw [List.length_append, hlen] at hn
    obtain ⟨n, rfl⟩ : ∃ n', n = n' + 1 := ⟨n - 1, by omega⟩
    generalize hz : (rs.flatMap fun r => encRec r.enc) = z at *
    have henc : encRec r.enc = put32 (UInt32.ofNat (r.enc.2.length + 13)) ++ r.enc.1.bytes ++ r.enc.2 := rfl
    cases hb : encRec r.enc ++ z with
    | nil =>
      have := congrArg List.length hb
      rw [List.length_append, hlen] at this
      simp at this
    | cons b bs =>
      simp only [parseLog]
      rw [← hb]
      have hw : encRec r.enc ++ z ++ extra = put32 (UInt32.ofNat (r.enc.2.length + 13)) ++ (r.enc.1.bytes ++ r.enc.2) ++ (z ++ extra) := by
        rw [henc]; simp [List.append_assoc]
      have h32 : get32 (encRec r.enc ++ z ++ extra) 0 = some (UInt32.ofNat (r.enc.2.length + 13)) := by
        rw [hw, List.append_assoc]
        have := get32_mid [] (UInt32.ofNat (r.enc.2.length + 13)) ((r.enc.1.bytes ++ r.enc.2) ++ (z ++ extra)) 0 rfl
        simpa using this
      have hsl : slice? (encRec r.enc ++ z ++ extra) 4 (r.enc.2.length + 13) = some (r.enc.1.bytes ++ r.enc.2) := by
        rw [hw]
        apply slice?_mid
        · simp
        · simp [MKey.length_bytes]; omega
      rw [h32]
      simp only [Option.bind_some, UInt32_toNat_ofNat hsz, hsl]
      rw [if_neg (by simp [MKey.length_bytes])]
      have hk : get64 (r.enc.1.bytes ++ r.enc.2) 1 = some r.enc.1.key := by
        have := get64_mid [if r.enc.1.del then 1 else 0] r.enc.1.key r.enc.2 1 rfl
        simpa [MKey.bytes] using this
      rw [hk]
      have hdrop : (encRec r.enc ++ z).drop (r.enc.2.length + 13) = z := by
        rw [List.drop_left' (by rw [hlen])]
      rw [hdrop, ih (fun r hr => h r (List.mem_cons_of_mem _ hr)) n (by omega)]
      simp only [Option.bind_some]
      cases r with
      | put k d =>
        have : ((LogRec.put k d).enc.1.bytes ++ (LogRec.put k d).enc.2).head? = some 0 := by simp [LogRec.enc, MKey.bytes]
        rw [this]
        have hd9 : ((LogRec.put k d).enc.1.bytes ++ (LogRec.put k d).enc.2).drop 9 = d := List.drop_left' (MKey.length_bytes _)
        rw [if_neg (by decide), hd9]
        rfl
      | del t k =>
        have : ((LogRec.del t k).enc.1.bytes ++ (LogRec.del t k).enc.2).head? = some 1 := by simp [LogRec.enc, MKey.bytes]
        rw [this, if_pos rfl]
        have hd13 : (encRec (LogRec.del t k).enc ++ z ++ extra).drop 13 = put64 (UInt64.ofInt t) ++ (z ++ extra) := by
          rw [List.append_assoc, henc, List.append_assoc, List.append_assoc]
          rw [← List.append_assoc (put32 _)]
          exact List.drop_left' (by simp [MKey.length_bytes])
        rw [hd13, get64_put]
        simp only [Option.map_some, Option.bind_some, toInt_ofInt64 t hr.1 hr.2]
        rfl

/-! ## Invariants of recovery -/

namespace Spec

/-- The last value put under a key in a list of log records. -/
def lastPut (rs : List LogRec) (k : UInt64) : Option Bytes :=
  rs.foldl (fun v r => match r with | .put k' d => if k' = k then some d else v | .del _ _ => v) none

/-- The key has a tombstone. -/
def tomb (rs : List LogRec) (k : UInt64) : Bool := rs.any fun r => match r with | .put _ _ => false | .del _ k' => k' = k

/-- Replaying log records: puts, then deletes. -/
def replay (rs : List LogRec) (k : UInt64) : Option Bytes := if tomb rs k then none else lastPut rs k

end Spec

theorem lastPut_foldl (rs : List LogRec) (k : UInt64) (v : Option Bytes) :
    rs.foldl (fun v r => match r with | .put k' d => if k' = k then some d else v | .del _ _ => v) v = (Spec.lastPut rs k).or v := by
  induction rs generalizing v with
  | nil => rfl
  | cons r rs ih =>
    simp only [Spec.lastPut, List.foldl_cons]
    rw [ih, ih]
    cases r with
    | put k' d =>
      simp only
      split
      · cases Spec.lastPut rs k <;> rfl
      · cases Spec.lastPut rs k <;> rfl
    | del t k' => cases Spec.lastPut rs k <;> rfl

theorem Spec.lastPut_append (rs rs' : List LogRec) (k : UInt64) : Spec.lastPut (rs ++ rs') k = (Spec.lastPut rs' k).or (Spec.lastPut rs k) := by
  rw [Spec.lastPut, List.foldl_append, lastPut_foldl]; rfl

theorem Spec.lastPut_cons (r : LogRec) (rs : List LogRec) (k : UInt64) : Spec.lastPut (r :: rs) k =
    (Spec.lastPut rs k).or (match r with | .put k' d => if k' = k then some d else none | .del _ _ => none) := by
  rw [Spec.lastPut, List.foldl_cons, lastPut_foldl]

theorem Spec.lastPut_isSome (rs : List LogRec) (k : UInt64) : (Spec.lastPut rs k).isSome ↔ ∃ d, LogRec.put k d ∈ rs := by
  induction rs with
  | nil => simp [Spec.lastPut]
  | cons r rs ih =>
    rw [Spec.lastPut_cons, Option.isSome_or, Bool.or_eq_true, ih]
    cases r with
    | put k' d =>
      by_cases h : k' = k
      · subst h; simp
      · have h' : ¬ k = k' := fun e => h e.symm
        simp [h, h']
    | del t k' => simp

theorem Spec.lastPut_mem {rs : List LogRec} {k : UInt64} {d : Bytes} (h : Spec.lastPut rs k = some d) : LogRec.put k d ∈ rs := by
  induction rs with
  | nil => simp [Spec.lastPut] at h
  | cons r rs ih =>
    rw [Spec.lastPut_cons] at h
    cases hl : Spec.lastPut rs k with
    | some d' => rw [hl] at h; rw [hl] at ih; exact List.mem_cons_of_mem _ (ih h)
    | none =>
      rw [hl] at h
      cases r with
      | put k' d' =>
        simp only [Option.none_or] at h
        split at h
        · next e' => simp only [Option.some.injEq] at h; subst h; subst e'; exact List.mem_cons_self
        · simp at h
      | del t k' => simp at h

theorem Spec.tomb_iff (rs : List LogRec) (k : UInt64) : Spec.tomb rs k = true ↔ ∃ t, LogRec.del t k ∈ rs := by
  simp only [Spec.tomb, List.any_eq_true]
  constructor
  · rintro ⟨r, hr, h⟩
    cases r with
    | put k' d => simp at h
    | del t k' => simp only [decide_eq_true_eq] at h; subst h; exact ⟨t, hr⟩
  · rintro ⟨t, ht⟩
    exact ⟨_, ht, by simp⟩

theorem logPuts_get (rs : List LogRec) (k : UInt64) : (logPuts rs).get k = Spec.lastPut rs k := by
  have : ∀ m : AMap UInt64 Bytes, (rs.foldl (fun m r => match r with | .put k d => AMap.set m k d | .del _ _ => m) m).get k = (Spec.lastPut rs k).or (m.get k) := by
    induction rs with
    | nil => intro m; rfl
    | cons r rs ih =>
      intro m
      rw [List.foldl_cons, ih, Spec.lastPut_cons]
      cases r with
      | put k' d =>
        simp only [AMap.get_set]
        by_cases h : k = k'
        · subst h; cases Spec.lastPut rs k <;> simp
        · have h' : ¬ k' = k := fun e => h e.symm
          simp [h, h']
      | del t k' => simp
  have := this []
  rw [AMap.get_nil, Option.or_none] at this
  exact this

theorem logPuts_nodup (rs : List LogRec) : (logPuts rs).Nodup := by
  have : ∀ m : AMap UInt64 Bytes, m.Nodup → AMap.Nodup (rs.foldl (fun m r => match r with | .put k d => AMap.set m k d | .del _ _ => m) m) := by
    induction rs with
    | nil => intro m h; exact h
    | cons r rs ih =>
      intro m h
      rw [List.foldl_cons]
      apply ih
      cases r with
      | put k d => exact h.set k d
      | del t k => exact h
  exact this [] AMap.Nodup.nil

theorem addDels_spec (rs : List LogRec) (m : AMap Int (List UInt64)) (hm : m.Nodup) :
    (addDels m rs).Nodup ∧ ∀ t k, k ∈ ((addDels m rs).get t).getD [] ↔ k ∈ (m.get t).getD [] ∨ LogRec.del t k ∈ rs := by
  induction rs generalizing m with
  | nil => exact ⟨hm, by simp [addDels]⟩
  | cons r rs ih =>
    simp only [addDels, List.foldl_cons]
    cases r with
    | put k d =>
      obtain ⟨h1, h2⟩ := ih m hm
      refine ⟨h1, fun t k' => ?_⟩
      have := h2 t k'
      simp only [addDels] at this
      simp [this]
    | del t k =>
      obtain ⟨h1, h2⟩ := ih (m.set t ((m.get t).getD [] ++ [k])) (hm.set _ _)
      refine ⟨h1, fun t' k' => ?_⟩
      have := h2 t' k'
      simp only [addDels] at this
      rw [this, AMap.get_set]
      by_cases h : t' = t
      · subst h
        simp only [if_true, Option.getD_some, List.mem_append, List.mem_cons, LogRec.del.injEq, true_and, List.not_mem_nil, or_false]
        constructor
        · rintro ((h | h) | h)
          · exact Or.inl h
          · exact Or.inr (Or.inl h)
          · exact Or.inr (Or.inr h)
        · rintro (h | h | h)
          · exact Or.inl (Or.inl h)
          · exact Or.inl (Or.inr h)
          · exact Or.inr h
      · simp [h]

variable {e : MEnv} {s : MemDb} {m : UInt64 → Option Bytes}

theorem MInv.congr (h : MInv e s m) {m' : UInt64 → Option Bytes} (hm : ∀ k, m k = m' k) : MInv e s m' := by
  have : m = m' := funext hm
  rw [← this]; exact h

/-- The puts of one log. -/
theorem MInv.recPuts (kvs : List (UInt64 × Bytes)) (h : MInv e s m) (hready : (s.blocks.get s.cur).isSome) (hnd : AMap.Nodup kvs)
    (hnew : ∀ p ∈ kvs, m p.1 = none) (hsz : ∀ p ∈ kvs, p.2.length + 13 < 2 ^ 32) (hok : (s.recPuts e s.cur kvs).2 = .ok) :
    MInv e (s.recPuts e s.cur kvs).1 (fun k => (AMap.get kvs k).or (m k)) ∧ (s.recPuts e s.cur kvs).1.cur = s.cur ∧
      (s.recPuts e s.cur kvs).1.blocks = s.blocks ∧ ∀ a k, (s.holds a k ∨ (s.blocks.get s.cur = some a ∧ k ∈ AMap.keys kvs)) → (s.recPuts e s.cur kvs).1.holds a k := by
  induction kvs generalizing s m with
  | nil =>
    refine ⟨h.congr (fun k => by simp), rfl, rfl, ?_⟩
    rintro a k (h | ⟨_, h⟩)
    · exact h
    · simp [AMap.keys] at h
  | cons p kvs ih =>
    obtain ⟨k, d⟩ := p
    have hput : s.put e k d = s.putAt e s.cur k d := rfl
    simp only [MemDb.recPuts] at hok ⊢
    cases hp : s.putAt e s.cur k d with
    | mk s' o =>
      have hnf : o = .ok := by
        rw [hp] at hok
        cases o <;> simp_all
      subst hnf
      rw [hp] at hok
      simp only at hok ⊢
      obtain ⟨h1, h2⟩ := h.put k d (hsz _ List.mem_cons_self) (hnew _ List.mem_cons_self) hready (by rw [hput, hp]; simp)
      rw [hput, hp] at h2
      have hb : s'.blocks = s.blocks := by have := s.put_blocks e s.cur k d; rw [hp] at this; exact this
      have hc : s'.cur = s.cur := by have := s.putAt_cur e s.cur k d; rw [hp] at this; exact this
      have hn : k ∉ AMap.keys kvs ∧ AMap.Nodup kvs := by
        simp only [AMap.Nodup, AMap.keys, List.map_cons, List.nodup_cons] at hnd
        exact hnd
      have hk' : ∀ p ∈ kvs, p.1 ≠ k := by
        intro p hpm hpk
        exact hn.1 (List.mem_map.mpr ⟨p, hpm, hpk⟩)
      rw [← hc] at hok
      have := ih h2 (by rw [hb, hc]; exact hready) hn.2
        (fun p hp => by rw [if_neg (hk' p hp)]; exact hnew p (List.mem_cons_of_mem _ hp))
        (fun p hp => hsz p (List.mem_cons_of_mem _ hp)) hok
      rw [hc] at this
      obtain ⟨i1, i2, i3, i4⟩ := this
      refine ⟨i1.congr ?_, i2, by rw [i3, hb], ?_⟩
      · intro k'
        simp only [AMap.get]
        by_cases hkk : k' = k
        · subst hkk
          have : AMap.get kvs k' = none := by
            cases hg : AMap.get kvs k' with
            | none => rfl
            | some v => exact absurd rfl (hk' _ (AMap.mem_of_get _ hg))
          simp [this]
        · have : ¬ k = k' := fun e => hkk e.symm
          simp [this, hkk]
      · -- what the put left in the blocks
        have hold : ∀ a k', s.holds a k' ∨ (s.blocks.get s.cur = some a ∧ k' = k) → s'.holds a k' := by
          intro a k' hh
          obtain ⟨a0, ha0⟩ := Option.isSome_iff_exists.mp hready
          simp only [MemDb.putAt, h.opened, ha0] at hp
          have hlt := (h.addr _ _ ha0).1
          split at hp
          · simp at hp
          · split at hp
            · simp at hp
            · next b hb' =>
              simp only [Prod.mk.injEq, and_true] at hp
              subst hp
              change (((s.setAt a0 b).at a).records.get ⟨false, k'⟩).isSome = true
              rw [s.at_setAt a0 a b hlt]
              have hrec := (MBlock.put_fields hb').1
              rcases hh with hh | ⟨e1, e2⟩
              · split
                · next e' =>
                  subst e'
                  rw [hrec, AMap.get_set]
                  split
                  · rfl
                  · exact hh
                · exact hh
              · rw [ha0] at e1
                simp only [Option.some.injEq] at e1
                rw [if_pos e1.symm, hrec, e2, AMap.get_set_self]; rfl
        intro a k' hh
        apply i4
        rcases hh with hh | ⟨hh1, hh2⟩
        · exact Or.inl (hold a k' (Or.inl hh))
        · simp only [AMap.keys, List.map_cons, List.mem_cons] at hh2
          rcases hh2 with hh2 | hh2
          · exact Or.inl (hold a k' (Or.inr ⟨hh1, hh2⟩))
          · exact Or.inr ⟨by rw [hb]; exact hh1, hh2⟩

/-- What recovery knows after some logs: the map, and where each key is. -/
structure RecInv (e : MEnv) (r : RecEnv) (s : MemDb) (dels : AMap Int (List UInt64)) (done : List (Int × List LogRec)) : Prop where
  inv : MInv e s (Spec.lastPut (done.flatMap (·.2)))
  place : ∀ l ∈ done, ∀ k d, LogRec.put k d ∈ l.2 → ∃ a, s.blocks.get (truncTime r.interval l.1) = some a ∧ s.holds a k
  ids : ∀ t a, s.blocks.get t = some a → ∃ l ∈ done, truncTime r.interval l.1 = t
  nodup : dels.Nodup
  dels : ∀ t k, k ∈ (dels.get t).getD [] ↔ LogRec.del t k ∈ done.flatMap (·.2)

theorem RecInv.log (r : RecEnv) (hord : ∀ l, (r.orderLog l).Perm l) {dels : AMap Int (List UInt64)} {done : List (Int × List LogRec)}
    (h : RecInv e r s dels done) (id : Int) (rs : List LogRec) (hfit : ∀ x ∈ rs, x.fits) (hcur : s.cur ≤ truncTime r.interval id)
    (hnew : ∀ k d d', LogRec.put k d ∈ rs → LogRec.put k d' ∉ done.flatMap (·.2)) :
    ∃ s' dels' o, s.recLog e r dels id (rs.flatMap fun x => encRec x.enc) = some (s', dels', o) ∧
      (o = .ok → RecInv e r s' dels' (done ++ [(id, rs)]) ∧ s'.cur = truncTime r.interval id) := by
  simp only [MemDb.recLog, parse_written r.extra rs hfit _ (Nat.le_refl _), Option.map_some]
  generalize ht : truncTime r.interval id = t at *
  obtain ⟨hdn, hdm⟩ := addDels_spec rs dels h.nodup
  have hinv := h.inv.rotate t hcur
  have hrc : (s.rotate t).cur = t := rfl
  have hready := s.rotate_ready t
  have hp := hord (logPuts rs)
  have hnd : AMap.Nodup (r.orderLog (logPuts rs)) := by
    have : (AMap.keys (r.orderLog (logPuts rs))).Perm (logPuts rs).keys := hp.map _
    exact this.nodup_iff.mpr (logPuts_nodup rs)
  have hget : ∀ k, AMap.get (r.orderLog (logPuts rs)) k = Spec.lastPut rs k := by
    intro k
    rw [← logPuts_get]
    cases hg : (logPuts rs).get k with
    | some v => exact hnd.get_of_mem (hp.mem_iff.mpr (AMap.mem_of_get _ hg))
    | none =>
      cases hg' : AMap.get (r.orderLog (logPuts rs)) k with
      | none => rfl
      | some v => rw [(logPuts_nodup rs).get_of_mem (hp.mem_iff.mp (AMap.mem_of_get _ hg'))] at hg; simp at hg
  have hmem : ∀ p ∈ r.orderLog (logPuts rs), LogRec.put p.1 p.2 ∈ rs := by
    intro p hpm
    apply Spec.lastPut_mem
    rw [← hget]
    exact hnd.get_of_mem hpm
  cases hr : (s.rotate t).recPuts e t (r.orderLog (logPuts rs)) with
  | mk s1 o =>
    by_cases ho : o = .ok
    · subst ho
      simp only
      refine ⟨_, _, _, rfl, fun _ => ?_⟩
      have hrp := hinv.recPuts (r.orderLog (logPuts rs)) hready hnd
        (fun p hpm => by
          cases hl : Spec.lastPut (done.flatMap (·.2)) p.1 with
          | none => rfl
          | some d => exact absurd (Spec.lastPut_mem hl) (hnew _ _ d (hmem p hpm)))
        (fun p hpm => hfit _ (hmem p hpm)) (by rw [hrc, hr])
      rw [hrc, hr] at hrp
      obtain ⟨i1, i2, i3, i4⟩ := hrp
      simp only at i1 i2 i3 i4
      obtain ⟨a, ha⟩ := Option.isSome_iff_exists.mp hready
      rw [hrc] at ha
      have ha1 : s1.blocks.get t = some a := by rw [i3]; exact ha
      rw [ha1]
      simp only
      have hok := i1.okb _ _ ha1
      have i5 := i1.setAt ha1 { s1.at a with timeRefs := (s1.at a).timeRefs ++ [id] }
        ⟨by obtain ⟨q, hh⟩ := hok.wf; exact ⟨q, hh.data, hh.sizes, hh.points⟩, hok.nodup, hok.count, hok.offs⟩ _
        (fun k hk => hk) (fun k x hx => i1.sound t a k x ha1 hx) (fun _ _ => rfl) (fun k hk => Or.inl hk)
      have hlt := (i1.addr _ _ ha1).1
      have hholds : ∀ a' k, (s1.setAt a { s1.at a with timeRefs := (s1.at a).timeRefs ++ [id] }).holds a' k ↔ s1.holds a' k := by
        intro a' k
        simp only [MemDb.holds, s1.at_setAt a a' _ hlt]
        split
        · next e' => subst e'; rfl
        · rfl
      refine ⟨⟨?_, ?_, ?_, hdn, ?_⟩, i2⟩
      · have i6 : MInv e { s1.setAt a { s1.at a with timeRefs := (s1.at a).timeRefs ++ [id] } with mark := s1.mark.release t } _ :=
          ⟨i5.opened, i5.addr, i5.gone, i5.inj, i5.okb, i5.dead, i5.cur, i5.late, i5.recsLate, i5.sound, i5.complete, i5.uniq, i5.filt, i5.query⟩
        refine i6.congr fun k => ?_
        rw [List.flatMap_append, Spec.lastPut_append, hget]
        simp
      · intro l hl k d hk
        rcases List.mem_append.mp hl with hl | hl
        · obtain ⟨a', h1, h2⟩ := h.place l hl k d hk
          have hro : (s.rotate t).blocks.get (truncTime r.interval l.1) = some a' ∧ (s.rotate t).holds a' k := by
            have hlt' := (h.inv.addr _ _ h1).1
            simp only [MemDb.rotate, MemDb.addTimeBlock]
            cases hbt : s.blocks.get t with
            | some b => exact ⟨h1, h2⟩
            | none =>
              simp only
              refine ⟨?_, ?_⟩
              · rw [AMap.get_set_ne]
                · exact h1
                · intro hc; rw [hc, hbt] at h1; simp at h1
              · simp only [MemDb.holds, MemDb.at, List.getD_eq_getElem?_getD] at h2 ⊢
                rw [List.getElem?_append_left hlt']
                exact h2
          refine ⟨a', ?_, (hholds a' k).mpr (i4 a' k (Or.inl hro.2))⟩
          change s1.blocks.get _ = some a'
          rw [i3]; exact hro.1
        · simp only [List.mem_singleton] at hl
          subst hl
          rw [ht]
          refine ⟨a, ha1, (hholds a k).mpr (i4 a k (Or.inr ⟨ha, ?_⟩))⟩
          rw [AMap.mem_keys, hget]
          exact (Spec.lastPut_isSome rs k).mpr ⟨d, hk⟩
      · intro t' a' h'
        change s1.blocks.get t' = some a' at h'
        rw [i3] at h'
        by_cases htt : t' = t
        · subst htt; exact ⟨(id, rs), List.mem_append_right _ (by simp), ht⟩
        · have : s.blocks.get t' = some a' := by
            simp only [MemDb.rotate, MemDb.addTimeBlock] at h'
            cases hbt : s.blocks.get t with
            | some b => rw [hbt] at h'; exact h'
            | none =>
              rw [hbt] at h'
              simp only at h'
              rw [AMap.get_set_ne _ _ htt] at h'
              exact h'
          obtain ⟨l, hl, hlt'⟩ := h.ids t' a' this
          exact ⟨l, List.mem_append_left _ hl, hlt'⟩
      · intro t' k
        rw [hdm, h.dels, List.flatMap_append, List.mem_append]
        simp
    · refine ⟨s1, addDels dels rs, o, ?_, fun hc => absurd hc ho⟩
      cases o <;> first | rfl | exact absurd rfl ho

theorem RecInv.logs (r : RecEnv) (hord : ∀ l, (r.orderLog l).Perm l) (logs : List (Int × List LogRec)) {dels : AMap Int (List UInt64)}
    {done : List (Int × List LogRec)} (h : RecInv e r s dels done) (hfit : ∀ l ∈ logs, ∀ x ∈ l.2, x.fits)
    (hcur : ∀ l ∈ logs, s.cur ≤ truncTime r.interval l.1) (hids : logs.Pairwise fun a b => a.1 ≤ b.1)
    (hnew : ∀ l ∈ logs, ∀ k d d', LogRec.put k d ∈ l.2 → LogRec.put k d' ∉ done.flatMap (·.2))
    (hdis : logs.Pairwise fun a b => ∀ k d d', LogRec.put k d ∈ a.2 → LogRec.put k d' ∉ b.2) :
    ∃ s' dels' o, s.recLogs e r dels (logs.map fun l => (l.1, l.2.flatMap fun x => encRec x.enc)) = some (s', dels', o) ∧
      (o = .ok → RecInv e r s' dels' (done ++ logs) ∧ ((∀ l ∈ logs, s'.cur ≠ truncTime r.interval l.1) → s'.cur = s.cur)) := by
  induction logs generalizing s dels done with
  | nil => exact ⟨s, dels, .ok, rfl, fun _ => ⟨by simpa using h, fun _ => rfl⟩⟩
  | cons l logs ih =>
    obtain ⟨id, rs⟩ := l
    rw [List.pairwise_cons] at hids hdis
    obtain ⟨s1, d1, o1, hl, hgood⟩ := h.log r hord id rs (hfit _ List.mem_cons_self) (hcur _ List.mem_cons_self) (hnew _ List.mem_cons_self)
    simp only [List.map_cons, MemDb.recLogs, hl, Option.bind_some]
    by_cases ho : o1 = .ok
    · subst ho
      obtain ⟨hI, hc⟩ := hgood rfl
      obtain ⟨s2, d2, o2, h2, hg2⟩ := ih hI (fun l hm => hfit l (List.mem_cons_of_mem _ hm))
        (fun l hm => by rw [hc]; exact truncTime_mono _ (hids.1 l hm)) hids.2
        (fun l hm k d d' hk => by
          rw [List.flatMap_append, List.mem_append, not_or]
          refine ⟨hnew l (List.mem_cons_of_mem _ hm) k d d' hk, ?_⟩
          simp only [List.flatMap_cons, List.flatMap_nil, List.append_nil]
          intro hk'
          exact hdis.1 l hm k d' d hk' hk) hdis.2
      refine ⟨s2, d2, o2, h2, fun ho => ?_⟩
      obtain ⟨g1, g2⟩ := hg2 ho
      refine ⟨by rw [List.append_assoc] at g1; exact g1, fun hne => ?_⟩
      have hcc := g2 (fun l hm => hne l (List.mem_cons_of_mem _ hm))
      rw [hc] at hcc
      exact absurd hcc (hne _ List.mem_cons_self)
    · refine ⟨s1, d1, o1, ?_, fun hc => absurd hc ho⟩
      cases o1 <;> first | rfl | exact absurd rfl ho

/-- A key leaves its block during recovery. -/
theorem MInv.recDrop (h : MInv e s m) {t : Int} {a : Nat} (ht : s.blocks.get t = some a) (key : UInt64) (hk : s.holds a key) :
    MInv e (s.recDrop t a key) (fun k => if k = key then none else m k) ∧ (s.recDrop t a key).cur = s.cur ∧
      (∀ t' a', (s.recDrop t a key).blocks.get t' = some a' → s.blocks.get t' = some a') ∧
      (∀ a' k, k ≠ key → s.holds a' k → (s.recDrop t a key).holds a' k) ∧
      ((s.recDrop t a key).blocks.get t = some a ∨ ∀ k, ¬ (s.recDrop t a key).holds a k) := by
  have hok := h.okb _ _ ht
  have hlt := (h.addr _ _ ht).1
  have hb : MBlock.Ok e.cap { s.at a with records := (s.at a).records.del ⟨false, key⟩, count := (s.at a).count - 1 } := by
    refine ⟨?_, hok.nodup.del _, ?_, ?_⟩
    · obtain ⟨rs, hh⟩ := hok.wf
      refine ⟨rs, hh.data, hh.sizes, fun k off hg => hh.points k off ?_⟩
      simp only [AMap.get_del] at hg
      split at hg
      · simp at hg
      · exact hg
    · obtain ⟨v, hv⟩ := Option.isSome_iff_exists.mp hk
      have := AMap.filter_del_length (s.at a).records hok.nodup ⟨false, key⟩ v (fun k => !k.del) hv rfl
      simp only [MBlock.live, hok.count]
      omega
    · intro k' v hg
      simp only [AMap.get_del] at hg
      split at hg
      · simp at hg
      · exact hok.offs k' v hg
  have hval : ∀ k r, MBlock.value { s.at a with records := (s.at a).records.del ⟨false, key⟩, count := (s.at a).count - 1 } ⟨false, k⟩ = some r →
      k ≠ key ∧ (s.at a).value ⟨false, k⟩ = some r := by
    intro k r hr
    simp only [MBlock.value, AMap.get_del] at hr ⊢
    split at hr
    · simp at hr
    · next hne => exact ⟨by simpa using hne, hr⟩
  have hrec : ∀ k, k ≠ key → AMap.get ((s.at a).records.del ⟨false, key⟩) ⟨false, k⟩ = (s.at a).records.get ⟨false, k⟩ := by
    intro k hne
    exact AMap.get_del_ne _ (by simpa using hne)
  have h1 := h.setAt ht _ hb (fun k => if k = key then none else m k)
    (fun k hk' => by
      by_cases hne : k = key
      · subst hne; exact hk
      · simp only [hrec k hne] at hk'; exact hk')
    (fun k r hr => by
      obtain ⟨hne, hr⟩ := hval k r hr
      obtain ⟨d, hd, hm⟩ := h.sound t a k r ht hr
      exact ⟨d, hd, by simp only [if_neg hne]; exact hm⟩)
    (fun k hk' => by
      have hne : k ≠ key := by rintro rfl; exact hk' hk
      simp [hne])
    (fun k hk' => by
      by_cases hne : k = key
      · right; simp [hne]
      · left; simp only [hrec k hne]; exact hk')
  have hat := fun a' => s.at_setAt a a' { s.at a with records := (s.at a).records.del ⟨false, key⟩, count := (s.at a).count - 1 } hlt
  have hkeep : ∀ a' k, k ≠ key → s.holds a' k → (s.setAt a { s.at a with records := (s.at a).records.del ⟨false, key⟩, count := (s.at a).count - 1 }).holds a' k := by
    intro a' k hne hk'
    simp only [MemDb.holds, hat]
    split
    · next e' => subst e'; simp only [hrec k hne]; exact hk'
    · exact hk'
  simp only [MemDb.recDrop]
  split
  · next hemp =>
    have ht1 : (s.setAt a { s.at a with records := (s.at a).records.del ⟨false, key⟩, count := (s.at a).count - 1 }).blocks.get t = some a := ht
    have hno : ∀ k, ¬ (s.setAt a { s.at a with records := (s.at a).records.del ⟨false, key⟩, count := (s.at a).count - 1 }).holds a k := by
      intro k hk'
      simp only [MemDb.holds, hat, if_true] at hk'
      have hemp' : (s.at a).records.del ⟨false, key⟩ = [] := hemp
      rw [hemp'] at hk'
      simp at hk'
    have h2 := h1.releaseEmpty ht1 hno
    simp only [MemDb.release, ht1] at h2
    have h3 := h2.2
    refine ⟨⟨h3.opened, h3.addr, h3.gone, h3.inj, h3.okb, h3.dead, h3.cur, h3.late, h3.recsLate, h3.sound, h3.complete, h3.uniq, h3.filt, h3.query⟩, rfl, ?_, hkeep, Or.inr hno⟩
    intro t' a' h'
    simp only [AMap.get_del] at h'
    split at h'
    · simp at h'
    · exact h'
  · exact ⟨h1, rfl, fun t' a' h' => h', hkeep, Or.inl ht⟩

/-- All deletes of one time id. -/
theorem MInv.recDels (htest : ∀ ks k, k ∈ ks → e.test ks k = true) (ref : Int) (keys : List UInt64) (h : MInv e s m)
    (hpl : ∀ k ∈ keys, ∀ a, s.blocks.get ref = some a → (m k).isSome → s.holds a k) :
    MInv e (s.recDels e ref keys) (fun k => if k ∈ keys then none else m k) ∧ (s.recDels e ref keys).cur = s.cur ∧
      (∀ t' a', (s.recDels e ref keys).blocks.get t' = some a' → s.blocks.get t' = some a') ∧
      ∀ a' k, k ∉ keys → s.holds a' k → (s.recDels e ref keys).holds a' k := by
  simp only [MemDb.recDels]
  cases hb : s.blocks.get ref with
  | some a =>
    simp only
    have hpl' : ∀ k ∈ keys, (m k).isSome → s.holds a k := fun k hk => hpl k hk a hb
    have hst : s.blocks.get ref = some a ∨ ∀ k, ¬ s.holds a k := Or.inl hb
    clear hpl hb
    induction keys generalizing s m with
    | nil => exact ⟨h.congr (by simp), rfl, fun _ _ h => h, fun _ _ _ h => h⟩
    | cons key keys ih =>
      simp only [List.foldl_cons]
      split
      · next hk =>
        have hb : s.blocks.get ref = some a := by
          rcases hst with h1 | h1
          · exact h1
          · exact absurd hk (h1 key)
        obtain ⟨d1, d2, d3, d4, hst'⟩ := h.recDrop hb key hk
        obtain ⟨i1, i2, i3, i4⟩ := ih d1 (fun k hk' hm => by
          by_cases hne : k = key
          · simp [hne] at hm
          · rw [if_neg hne] at hm; exact d4 a k hne (hpl' k (List.mem_cons_of_mem _ hk') hm)) hst'
        refine ⟨i1.congr ?_, by rw [i2, d2], fun t' a' h' => d3 t' a' (i3 t' a' h'), ?_⟩
        · intro k
          by_cases h1 : k = key
          · simp [h1]
          · simp [h1]
        · intro a' k hk' hh
          simp only [List.mem_cons, not_or] at hk'
          exact i4 a' k hk'.2 (d4 a' k hk'.1 hh)
      · next hk =>
        have hm0 : m key = none := by
          cases hm : m key with
          | none => rfl
          | some d => exact absurd (hpl' key List.mem_cons_self (by rw [hm]; rfl)) hk
        obtain ⟨i1, i2, i3, i4⟩ := ih h (fun k hk' hm => hpl' k (List.mem_cons_of_mem _ hk') hm) hst
        refine ⟨i1.congr ?_, i2, i3, ?_⟩
        · intro k
          by_cases h1 : k = key
          · simp [h1, hm0]
          · simp [h1]
        · intro a' k hk' hh
          simp only [List.mem_cons, not_or] at hk'
          exact i4 a' k hk'.2 hh
  | none =>
    simp only
    clear hpl hb
    induction keys generalizing s m with
    | nil => exact ⟨h.congr (by simp), rfl, fun _ _ h => h, fun _ _ _ h => h⟩
    | cons key keys ih =>
      simp only [List.foldl_cons]
      have hone : MInv e (s.recDelete e key) (fun k => if k = key then none else m k) ∧ (s.recDelete e key).cur = s.cur ∧
          (∀ t' a', (s.recDelete e key).blocks.get t' = some a' → s.blocks.get t' = some a') ∧
          ∀ a' k, k ≠ key → s.holds a' k → (s.recDelete e key).holds a' k := by
        simp only [MemDb.recDelete]
        cases hm : m key with
        | none =>
          rw [h.find_none key hm]
          refine ⟨h.congr fun k => ?_, rfl, fun _ _ h => h, fun _ _ _ h => h⟩
          by_cases h1 : k = key
          · simp [h1, hm]
          · simp [h1]
        | some d =>
          obtain ⟨t, a, hf, ht, hk⟩ := h.find_some htest key hm
          rw [hf]
          obtain ⟨d1, d2, d3, d4, _⟩ := h.recDrop ht key hk
          exact ⟨d1, d2, d3, d4⟩
      obtain ⟨d1, d2, d3, d4⟩ := hone
      obtain ⟨i1, i2, i3, i4⟩ := ih d1
      refine ⟨i1.congr ?_, by rw [i2, d2], fun t' a' h' => d3 t' a' (i3 t' a' h'), ?_⟩
      · intro k
        by_cases h1 : k = key
        · simp [h1]
        · simp [h1]
      · intro a' k hk' hh
        simp only [List.mem_cons, not_or] at hk'
        exact i4 a' k hk'.2 (d4 a' k hk'.1 hh)

theorem MInv.recAllDels (htest : ∀ ks k, k ∈ ks → e.test ks k = true) (ps : List (Int × List UInt64)) (h : MInv e s m)
    (hpl : ∀ p ∈ ps, ∀ k ∈ p.2, ∀ a, s.blocks.get p.1 = some a → (m k).isSome → s.holds a k) :
    MInv e (ps.foldl (fun s p => s.recDels e p.1 p.2) s) (fun k => if ∃ p ∈ ps, k ∈ p.2 then none else m k) ∧
      (ps.foldl (fun s p => s.recDels e p.1 p.2) s).cur = s.cur := by
  induction ps generalizing s m with
  | nil => exact ⟨h.congr (by simp), rfl⟩
  | cons p ps ih =>
    obtain ⟨d1, d2, d3, d4⟩ := h.recDels htest p.1 p.2 (hpl p List.mem_cons_self)
    obtain ⟨i1, i2⟩ := ih d1 (fun q hq k hk a ha hm => by
      by_cases hkp : k ∈ p.2
      · simp [hkp] at hm
      · rw [if_neg hkp] at hm
        exact d4 a k hkp (hpl q (List.mem_cons_of_mem _ hq) k hk a (d3 _ _ ha) hm))
    refine ⟨i1.congr fun k => ?_, by rw [List.foldl_cons, i2, d2]⟩
    by_cases h1 : k ∈ p.2
    · have : ∃ q ∈ p :: ps, k ∈ q.2 := ⟨p, List.mem_cons_self, h1⟩
      rw [if_pos this]; simp [h1]
    · rw [if_neg h1]
      have : (∃ q ∈ p :: ps, k ∈ q.2) ↔ ∃ q ∈ ps, k ∈ q.2 := by
        simp only [List.mem_cons, exists_eq_or_imp, h1, false_or]
      simp only [this]

theorem MInv.blank (e : MEnv) (t : Int) (ht : (e.cap : Int) ≤ t) : MInv e ({ cur := t } : MemDb) (fun _ => none) := by
  refine ⟨rfl, ?_, ?_, ?_, ?_, ?_, ht, ?_, ?_, ?_, ?_, ?_, ?_, ?_⟩ <;> intros <;> simp_all

end Verif
