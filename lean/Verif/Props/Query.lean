import Verif.Model.Query
import Verif.Props.Get

/-!
# C26 and C27: query limits and time-to-live
-/

namespace Verif

/-! ## C26 -/

/-- The number of messages the topic option asks for, 0 without such an option. -/
def lastCount (dur : Bytes → Int) (q : Query) : Int := ((topicLast dur 0 (parseOptions (parseKey q.topic).2)).map (·.2)).getD 0

/-- Whether the topic has the option "last". -/
def hasLast (q : Query) : Prop := getOption kLast (parseOptions (parseKey q.topic).2) ≠ none

theorem topicLast_count (dur : Bytes → Int) (now now' : Int) (opts : List (Bytes × Bytes)) :
    (topicLast dur now opts).map (·.2) = (topicLast dur now' opts).map (·.2) := by
  unfold topicLast
  cases getOption kLast opts with
  | none => rfl
  | some p => obtain ⟨d, n⟩ := p; dsimp only [Option.map]; split <;> rfl

theorem lastCount_nonneg (dur : Bytes → Int) (q : Query) : 0 ≤ lastCount dur q := by
  unfold lastCount topicLast
  cases getOption kLast (parseOptions (parseKey q.topic).2) with
  | none => simp
  | some p => obtain ⟨d, n⟩ := p; dsimp only [Option.map, Option.getD]; split <;> simp; omega

/-- The limit of a query that names none, neither in the query nor in the topic, is the database's default. -/
theorem C26_default (dur : Bytes → Int) (now : Int) (o : QOpts) (q : Query) (h : q.limit = 0) (hn : lastCount dur q = 0) :
    (q.ask dur now o).limit = o.default := by
  have hc := topicLast_count dur now 0 (parseOptions (parseKey q.topic).2)
  unfold lastCount at hn
  rw [← hc] at hn
  simp only [Query.ask, resolveLimit, h]
  cases hl : topicLast dur now (parseOptions (parseKey q.topic).2) with
  | none => simp
  | some p =>
    obtain ⟨t, n⟩ := p
    rw [hl] at hn
    have : n = 0 := by simpa using hn
    simp only [this, and_self, if_true]
    split <;> rfl

/-- The maximum holds for queries whose topic has the option "last", unless the default is larger than the maximum. -/
theorem C26_max_partial (dur : Bytes → Int) (now : Int) (o : QOpts) (q : Query) (hl : hasLast q) (ho : o.default ≤ o.max) :
    (q.ask dur now o).limit ≤ o.max := by
  unfold hasLast at hl
  simp only [Query.ask, resolveLimit]
  cases h : topicLast dur now (parseOptions (parseKey q.topic).2) with
  | none => simp [topicLast] at h; exact absurd h hl
  | some p =>
    obtain ⟨t, n⟩ := p
    dsimp only
    split_ifs <;> omega

/-- A Get whose topic has the option "last" returns at most the configured maximum of messages. -/
theorem C26_get_max_partial (dur : Bytes → Int) (clock : Int) (o : QOpts) (q : Query) (hl : hasLast q) (ho : o.default ≤ o.max)
    (hpos : 0 ≤ (q.ask dur clock o).limit) (v : View) (now : UInt32) (lists : UInt64 → List (List WinEntry)) (file : Bytes)
    (topics : List (UInt64 × Int)) (old : List UInt64) (cap : Nat) :
    ((dbGet v now lists file (q.ask dur clock o) topics old cap).items.length : Int) ≤ o.max :=
  Int.le_trans (C20_at_most_limit v now lists file _ topics old cap hpos) (C26_max_partial dur clock o q hl ho)

/-- "a?last=5" -/
def lastFive : Bytes := [97, 63, 108, 97, 115, 116, 61, 53]

example : hasLast ⟨lastFive, 0, 0, 0, none⟩ ∧ (Query.ask (fun _ => 0) 0 ⟨10, 3⟩ ⟨lastFive, 0, 0, 0, none⟩).limit = 3 ∧
    (Query.ask (fun _ => 0) 0 ⟨10, 30⟩ ⟨lastFive, 0, 0, 0, none⟩).limit = 5 := by
  unfold hasLast; decide

/-- Without the option "last" the limit of the query is taken as it is, whatever the maximum. -/
theorem limit_unchecked (dur : Bytes → Int) (now : Int) (o : QOpts) (q : Query) (hl : ¬ hasLast q) (h0 : q.limit ≠ 0) :
    (q.ask dur now o).limit = q.limit := by
  unfold hasLast at hl
  have : topicLast dur now (parseOptions (parseKey q.topic).2) = none := by
    rw [Decidable.not_not] at hl; rw [topicLast, hl]; rfl
  simp [Query.ask, resolveLimit, this, h0]

/-- C26 is violated: a database with maximum 1 returns two messages to the query "a" with limit 2. -/
theorem C26_max_violated : dbGet memView 10 (fun _ => [[⟨1, 0⟩, ⟨2, 0⟩]]) []
    (Query.ask (fun _ => 0) 0 ⟨1, 1⟩ ((newQuery [97]).withLimit 2)) [(77, 0)] [] 2 = .ok [[2], [1]] := by
  decide +kernel

/-- C26 is violated: `WithLast` takes the default limit of a new query (1000) instead of the one of the database. With default and
maximum 1, two messages are returned to a query that names no limit. -/
theorem C26_withLast_default_violated :
    (((newQuery [97]).withLast 1700000000000000000 3600000000000).map fun q =>
      dbGet memView 10 (fun _ => [[⟨12, 0⟩, ⟨13, 0⟩]]) [] (q.ask (fun _ => 0) 0 ⟨1, 1⟩) [(77, 0)] [] 2) = some (.ok [[13], [12]]) := by
  decide +kernel

/-! ## C27 -/

theorem toU32_toNat {x : Int} (h0 : 0 ≤ x) (h1 : x < 2 ^ 32) : (toU32 x).toNat = x.toNat := by
  unfold toU32
  rw [Int.emod_eq_of_lt h0 h1, UInt32.toNat_ofNat']
  exact Nat.mod_eq_of_lt (by omega)

/-- When a message with expiry time `x` is expired: from second `x` on. -/
theorem isExpired_iff {x t : Int} (h0 : 0 < x) (h1 : x < 2 ^ 32) (t0 : 0 ≤ t) (t1 : t < 2 ^ 32) (seq : UInt64) :
    WinEntry.isExpired (toU32 t) ⟨seq, toU32 x⟩ = true ↔ x ≤ t := by
  have hx := toU32_toNat (Int.le_of_lt h0) h1
  have ht := toU32_toNat t0 t1
  simp only [WinEntry.isExpired, Bool.and_eq_true, decide_eq_true_eq, UInt32.le_iff_toNat_le, hx, ht, ne_eq]
  constructor
  · rintro ⟨-, h⟩; omega
  · intro h
    refine ⟨?_, by omega⟩
    intro hc
    have := congrArg UInt32.toNat hc
    rw [hx] at this
    simp at this
    omega

/-- C27 for a topic option "ttl" with a duration: an entry without an expiry of its own, put when the clock shows `now`
nanoseconds, with a time-to-live of `d` whole seconds, is expired from `d` seconds after `now` on and not before, in seconds of the
clock up to 2106. -/
theorem C27_ttl_option_partial (dur : Bytes → Int) (now d : Int) (key v : Bytes) (seq : UInt64)
    (ho : getOption kTTL (parseOptions (parseKey key).2) = some (v, 0)) (hd : dur v = d * 1000000000)
    (hx0 : 0 < unixSec now + d) (hx : unixSec now + d < 2 ^ 32) (t : Int) (t0 : 0 ≤ t) (ht : t < 2 ^ 32) :
    WinEntry.isExpired (toU32 t) ⟨seq, storedExpiry dur now key 0⟩ = true ↔ unixSec now + d ≤ t := by
  have he : unixSec (now + dur v) = unixSec now + d := by
    rw [hd]; unfold unixSec; omega
  have hs : storedExpiry dur now key 0 = toU32 (unixSec now + d) := by
    have hp : toU32 (unixSec now + d) > 0 := by
      rw [gt_iff_lt, UInt32.lt_iff_toNat_lt, toU32_toNat (by omega) hx]; show 0 < _; omega
    have hT : topicTTL dur now (parseOptions (parseKey key).2) = some (toU32 (unixSec now + d)) := by
      rw [topicTTL, ho, ← he]; rfl
    unfold storedExpiry
    rw [hT]
    exact if_pos ⟨rfl, hp⟩
  rw [hs]
  exact isExpired_iff hx0 hx t0 ht seq

/-- C27 for `WithTTL` with a duration of `d` whole seconds. -/
theorem C27_withTTL_partial (dur : Bytes → Int) (now d : Int) (v : Bytes) (seq : UInt64) (key : Bytes) (hd : dur v = d * 1000000000)
    (hx0 : 0 < unixSec now + d) (hx : unixSec now + d < 2 ^ 32) (t : Int) (t0 : 0 ≤ t) (ht : t < 2 ^ 32) :
    WinEntry.isExpired (toU32 t) ⟨seq, storedExpiry dur now key (withTTL dur now v)⟩ = true ↔ unixSec now + d ≤ t := by
  have he : withTTL dur now v = toU32 (unixSec now + d) := by
    unfold withTTL; dsimp only; rw [hd]; congr 1; unfold unixSec; omega
  have hp : toU32 (unixSec now + d) ≠ 0 := by
    intro hc
    have := congrArg UInt32.toNat hc
    rw [toU32_toNat (by omega) hx] at this
    simp at this; omega
  have hs : storedExpiry dur now key (withTTL dur now v) = toU32 (unixSec now + d) := by
    rw [he]; simp only [storedExpiry]; rw [if_neg (fun h => hp h.1)]
  rw [hs]
  exact isExpired_iff hx0 hx t0 ht seq

/-- "a?ttl=1m", "a?ttl=60" and "a?ttl=1" -/
def ttlMinute : Bytes := [97, 63, 116, 116, 108, 61, 49, 109]
def ttlSixty : Bytes := [97, 63, 116, 116, 108, 61, 54, 48]
def ttlOne : Bytes := [97, 63, 116, 116, 108, 61, 49]

example : getOption kTTL (parseOptions (parseKey ttlMinute).2) = some ([49, 109], 0) ∧
    0 < unixSec 1700000000000000000 + 60 ∧ unixSec 1700000000000000000 + 60 < 2 ^ 32 := by decide

/-- C27 is violated: the option "ttl=60" stores an expiry that does not depend on the clock (60·10^9 modulo 2^32): a message stored
in November 2023 is not expired ten years later. -/
theorem C27_option_seconds_violated (dur : Bytes → Int) (now : Int) (seq : UInt64) :
    WinEntry.isExpired (toU32 (1700000000 + 10 * 365 * 86400)) ⟨seq, storedExpiry dur now ttlSixty 0⟩ = false := by
  have ho : getOption kTTL (parseOptions (parseKey ttlSixty).2) = some ([], 60) := by decide
  have hT : topicTTL dur now (parseOptions (parseKey ttlSixty).2) = some 4165425152 := by rw [topicTTL, ho]; rfl
  have hs : storedExpiry dur now ttlSixty 0 = 4165425152 := by unfold storedExpiry; rw [hT]; rfl
  rw [hs]; rfl

/-- C27 is violated: the other way round, "ttl=1" stores an expiry in 2001. -/
theorem C27_option_past_violated (dur : Bytes → Int) (now : Int) (seq : UInt64) :
    WinEntry.isExpired (toU32 1700000000) ⟨seq, storedExpiry dur now ttlOne 0⟩ = true := by
  have ho : getOption kTTL (parseOptions (parseKey ttlOne).2) = some ([], 1) := by decide
  have hT : topicTTL dur now (parseOptions (parseKey ttlOne).2) = some 1000000000 := by rw [topicTTL, ho]; rfl
  have hs : storedExpiry dur now ttlOne 0 = 1000000000 := by unfold storedExpiry; rw [hT]; rfl
  rw [hs]; rfl

/-- C27 is violated: `WithTTL` with a plain number of seconds, which `time.ParseDuration` rejects, expires the message at once. -/
theorem C27_withTTL_seconds_violated (dur : Bytes → Int) (now : Int) (v : Bytes) (hd : dur v = 0) (seq : UInt64)
    (h0 : 0 < unixSec now) (h1 : unixSec now < 2 ^ 32) : WinEntry.isExpired (toU32 (unixSec now)) ⟨seq, withTTL dur now v⟩ = true := by
  have : withTTL dur now v = toU32 (unixSec now) := by unfold withTTL; dsimp only; rw [hd, Int.add_zero]
  rw [this]
  exact (isExpired_iff h0 h1 (by omega) h1 seq).2 (Int.le_refl _)

end Verif
