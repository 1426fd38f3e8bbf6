import Verif.Props.Query
import Mathlib.Data.Nat.Digits.Defs

/-!
# C24, C26, C27: the options in the text of a topic
-/

namespace Verif

theorem fieldsAux_whole {sep : UInt8} {b : Bytes} (h : sep ∉ b) (cur : Bytes) (hne : cur ++ b ≠ []) :
    fieldsAux sep cur b = [cur ++ b] := by
  induction b generalizing cur with
  | nil => simp only [List.append_nil] at hne ⊢; simp [fieldsAux, hne]
  | cons x xs ih =>
    have hx : x ≠ sep := fun e => h (by simp [e])
    have := ih (fun m => h (List.mem_cons_of_mem _ m)) (cur ++ [x]) (by simp)
    rw [fieldsAux, if_neg hx, this]
    simp

theorem fieldsAux_cut {sep : UInt8} {a : Bytes} (h : sep ∉ a) (b cur : Bytes) (hne : cur ++ a ≠ []) :
    fieldsAux sep cur (a ++ sep :: b) = (cur ++ a) :: fieldsAux sep [] b := by
  induction a generalizing cur with
  | nil => simp only [List.append_nil] at hne ⊢; simp [fieldsAux, hne]
  | cons x xs ih =>
    have hx : x ≠ sep := fun e => h (by simp [e])
    have := ih (fun m => h (List.mem_cons_of_mem _ m)) (cur ++ [x]) (by simp)
    rw [List.cons_append, fieldsAux, if_neg hx, this]
    simp

/-- A topic text with one option: `key?name=value`. -/
def Spec.withOption (key name value : Bytes) : Bytes := key ++ 63 :: (name ++ 61 :: value)

/-- A text that can be the name or the value of an option, or a topic before its options. -/
def Spec.Plain (b : Bytes) : Prop := b ≠ [] ∧ 63 ∉ b ∧ 38 ∉ b ∧ 61 ∉ b

instance (b : Bytes) : Decidable (Spec.Plain b) := inferInstanceAs (Decidable (_ ∧ _ ∧ _ ∧ _))

theorem parse_withOption {key name value : Bytes} (hk : key ≠ []) (hq : 63 ∉ key) (hn : Spec.Plain name) (hv : Spec.Plain value) :
    parseKey (Spec.withOption key name value) = (key, name ++ 61 :: value) ∧
    parseOptions (name ++ 61 :: value) = [(name, value)] := by
  have h63 : (63 : UInt8) ∉ name ++ 61 :: value := by
    simp only [List.mem_append, List.mem_cons, not_or]; exact ⟨hn.2.1, by decide, hv.2.1⟩
  have h38 : (38 : UInt8) ∉ name ++ 61 :: value := by
    simp only [List.mem_append, List.mem_cons, not_or]; exact ⟨hn.2.2.1, by decide, hv.2.2.1⟩
  constructor
  · have e : fields chQuery (Spec.withOption key name value) = [key, name ++ 61 :: value] := by
      have h1 := fieldsAux_cut hq (name ++ 61 :: value) [] (by simpa using hk)
      have h2 := fieldsAux_whole h63 [] (by simp)
      simp only [List.nil_append] at h1 h2
      show fieldsAux 63 [] (key ++ 63 :: (name ++ 61 :: value)) = _
      rw [h1, h2]
    rw [parseKey, e]
  · have e : fields chAmp (name ++ 61 :: value) = [name ++ 61 :: value] := by
      have := fieldsAux_whole h38 [] (by simp)
      simp only [List.nil_append] at this
      exact this
    have e2 : fields chEq (name ++ 61 :: value) = [name, value] := by
      have h1 := fieldsAux_cut hn.2.2.2 value [] (by simpa using hn.1)
      have h2 := fieldsAux_whole hv.2.2.2 [] (by simpa using hv.1)
      simp only [List.nil_append] at h1 h2
      show fieldsAux 61 [] (name ++ 61 :: value) = _
      rw [h1, h2]
    rw [parseOptions, e]
    simp [e2]

/-- The decimal digits of a number, most significant first, as text. -/
def Spec.decimal (n : Nat) : Bytes := (Nat.digits 10 n).reverse.map fun d => UInt8.ofNat (48 + d)

theorem parseDigits_map (l : List Nat) (h : ∀ d ∈ l, d < 10) (a : Nat) :
    parseDigits (l.map fun d => UInt8.ofNat (48 + d)) a = some (l.foldl (fun a d => 10 * a + d) a) := by
  induction l generalizing a with
  | nil => rfl
  | cons d ds ih =>
    have hd := h d (by simp)
    have hb : (UInt8.ofNat (48 + d)).toNat = 48 + d := by simp; omega
    have h1 : (48 : UInt8) ≤ UInt8.ofNat (48 + d) ∧ UInt8.ofNat (48 + d) ≤ 57 := by
      simp only [UInt8.le_iff_toNat_le, hb]
      exact ⟨show 48 ≤ _ by omega, show _ ≤ 57 by omega⟩
    have h2 : (UInt8.ofNat (48 + d) - 48).toNat = d := by
      rw [UInt8.toNat_sub_of_le _ _ h1.1, hb]; show 48 + d - 48 = d; omega
    rw [List.map_cons, parseDigits, if_pos h1, h2, ih (fun x hx => h x (List.mem_cons_of_mem _ hx))]
    rfl

theorem parseNat_decimal {n : Nat} (h : 0 < n) : parseNat (Spec.decimal n) = some n := by
  have hne : Spec.decimal n ≠ [] := by
    simp [Spec.decimal, Nat.digits_ne_nil_iff_ne_zero]; omega
  rw [parseNat, if_neg hne, Spec.decimal, parseDigits_map _ (fun d hd => Nat.digits_lt_base (by omega) (List.mem_reverse.mp hd)),
    List.foldl_reverse]
  congr 1
  have := Nat.ofDigits_digits 10 n
  rw [Nat.ofDigits_eq_foldr] at this
  conv_rhs => rw [← this]
  simp [Nat.add_comm]

theorem decimal_plain {n : Nat} (h : 0 < n) : Spec.Plain (Spec.decimal n) ∧ ∀ b ∈ Spec.decimal n, b ≠ 43 ∧ b ≠ 45 := by
  have hne : Spec.decimal n ≠ [] := by
    simp [Spec.decimal, Nat.digits_ne_nil_iff_ne_zero]; omega
  have key : ∀ b ∈ Spec.decimal n, ∃ d, d < 10 ∧ b = UInt8.ofNat (48 + d) := by
    intro b hb
    obtain ⟨d, hd, rfl⟩ := List.mem_map.mp hb
    exact ⟨d, Nat.digits_lt_base (by omega) (List.mem_reverse.mp hd), rfl⟩
  have no : ∀ c : UInt8, c < 48 ∨ 57 < c → c ∉ Spec.decimal n := by
    intro c hc hm
    obtain ⟨d, hd, rfl⟩ := key c hm
    have hb : (UInt8.ofNat (48 + d)).toNat = 48 + d := by simp; omega
    simp only [UInt8.lt_iff_toNat_lt, hb] at hc
    rcases hc with hc | hc
    · have : (48 : UInt8).toNat = 48 := rfl
      omega
    · have : (57 : UInt8).toNat = 57 := rfl
      omega
  exact ⟨⟨hne, no _ (by decide), no _ (by decide), no _ (by decide)⟩,
    fun b hb => ⟨fun e => no 43 (by decide) (e ▸ hb), fun e => no 45 (by decide) (e ▸ hb)⟩⟩

theorem parseInt_decimal {n : Nat} (h : 0 < n) (hn : n < 2 ^ 63) : parseInt (Spec.decimal n) = some (n : Int) := by
  have hp := decimal_plain h
  have hd := parseNat_decimal h
  obtain ⟨x, l, e⟩ : ∃ x l, Spec.decimal n = x :: l := by
    cases hc : Spec.decimal n with
    | nil => exact absurd hc hp.1.1
    | cons x l => exact ⟨x, l, rfl⟩
  have hx := hp.2 x (by simp [e])
  rw [e] at hd ⊢
  unfold parseInt
  split
  · rename_i heq; cases heq; exact absurd rfl hx.1
  · rename_i heq; cases heq; exact absurd rfl hx.2
  · rw [hd]; simp; omega

/-- C26. A topic `key?last=n` with a positive number `n`, written in decimal: the query has no cutoff, and of the limit in the
query and `n` the larger one counts, but never more than the maximum. -/
theorem C26_last_count (dur : Bytes → Int) (now : Int) (o : QOpts) (q : Query) (key : Bytes) (n : Nat) (hk : key ≠ []) (hq : 63 ∉ key)
    (hn : 0 < n) (hn2 : n < 2 ^ 63) (hm : 0 < o.max) (ht : q.topic = Spec.withOption key kLast (Spec.decimal n)) :
    (q.ask dur now o).cutoff = 0 ∧
    (q.ask dur now o).limit = min o.max (max (n : Int) q.limit) := by
  have hp := parse_withOption hk hq (by decide : Spec.Plain kLast) (decimal_plain hn).1
  have hl : topicLast dur now (parseOptions (parseKey q.topic).2) = some (0, (n : Int)) := by
    rw [ht, hp.1, hp.2]
    simp only [topicLast, getOption, if_true, parseInt_decimal hn hn2, Option.map_some]
    rw [if_pos (by omega)]
  simp only [Query.ask, hl, resolveLimit, true_and]
  split_ifs <;> omega

/-- C24. A topic `key?last=d` with a text `d` that is not a number: the cutoff is the time that lies the duration `d` before the
Get, in whole seconds, whatever cutoff the query had. The limit is the query's own, at most the maximum, or the default. -/
theorem C24_last_duration (dur : Bytes → Int) (now : Int) (o : QOpts) (q : Query) (key d : Bytes) (hk : key ≠ []) (hq : 63 ∉ key)
    (hd : Spec.Plain d) (hi : parseInt d = none) (hm : 0 < o.max) (hl0 : 0 ≤ q.limit)
    (ht : q.topic = Spec.withOption key kLast d) :
    (q.ask dur now o).cutoff = unixSec (now - dur d) ∧
    (q.ask dur now o).limit = if q.limit = 0 then o.default else min o.max q.limit := by
  have hp := parse_withOption hk hq (by decide : Spec.Plain kLast) hd
  have hl : topicLast dur now (parseOptions (parseKey q.topic).2) = some (unixSec (now - dur d), 0) := by
    rw [ht, hp.1, hp.2]
    simp [topicLast, getOption, hi]
  simp only [Query.ask, hl, resolveLimit, true_and]
  split_ifs <;> omega

/-- C24. A topic `key?last=-n`: a negative number is neither a number of messages nor a duration. The cutoff is the second of the
Get itself (`time.ParseDuration` of the empty text gives 0), and the number is ignored. -/
theorem C24_last_negative (dur : Bytes → Int) (now : Int) (o : QOpts) (q : Query) (key : Bytes) (n : Nat) (hk : key ≠ []) (hq : 63 ∉ key)
    (hn : 0 < n) (hn2 : n ≤ 2 ^ 63) (hm : 0 < o.max) (hl0 : 0 ≤ q.limit) (h0 : dur [] = 0)
    (ht : q.topic = Spec.withOption key kLast (45 :: Spec.decimal n)) :
    (q.ask dur now o).cutoff = unixSec now ∧
    (q.ask dur now o).limit = if q.limit = 0 then o.default else min o.max q.limit := by
  have hdp := (decimal_plain hn).1
  have hpl : Spec.Plain (45 :: Spec.decimal n) := by
    refine ⟨by simp, ?_, ?_, ?_⟩ <;> simp only [List.mem_cons, not_or]
    · exact ⟨by decide, hdp.2.1⟩
    · exact ⟨by decide, hdp.2.2.1⟩
    · exact ⟨by decide, hdp.2.2.2⟩
  have hp := parse_withOption hk hq (by decide : Spec.Plain kLast) hpl
  have hi : parseInt (45 :: Spec.decimal n) = some (-(n : Int)) := by
    simp [parseInt, parseNat_decimal hn]; omega
  have hl : topicLast dur now (parseOptions (parseKey q.topic).2) = some (unixSec now, 0) := by
    rw [ht, hp.1, hp.2]
    simp only [topicLast, getOption, if_true, hi, Option.map_some]
    rw [if_neg (by omega), h0, Int.sub_zero]
  simp only [Query.ask, hl, resolveLimit, true_and]
  split_ifs <;> omega

/-- C27 (partial as `C27_ttl_option_partial`) for the text `key?ttl=d` with a text `d` that is not a number and stands for `sec` whole seconds. -/
theorem C27_ttl_text_partial (dur : Bytes → Int) (now sec : Int) (key d : Bytes) (seq : UInt64) (hk : key ≠ []) (hq : 63 ∉ key)
    (hd : Spec.Plain d) (hi : parseInt d = none) (hs : dur d = sec * 1000000000) (hx0 : 0 < unixSec now + sec)
    (hx : unixSec now + sec < 2 ^ 32) (t : Int) (t0 : 0 ≤ t) (ht : t < 2 ^ 32) :
    WinEntry.isExpired (toU32 t) ⟨seq, storedExpiry dur now (Spec.withOption key kTTL d) 0⟩ = true ↔ unixSec now + sec ≤ t := by
  have hp := parse_withOption hk hq (by decide : Spec.Plain kTTL) hd
  refine C27_ttl_option_partial dur now sec _ d seq ?_ hs hx0 hx t t0 ht
  rw [hp.1, hp.2]
  simp [getOption, hi]

example : lastFive = Spec.withOption [97] kLast (Spec.decimal 5) ∧ Spec.decimal 120 = [49, 50, 48] := by
  simp [Spec.withOption, Spec.decimal, lastFive, kLast]

/-- "1h" is not a number; "-5" is. -/
example : Spec.Plain [49, 104] ∧ parseInt [49, 104] = none ∧ parseInt [45, 53] = some (-5) ∧ parseInt [43, 53] = some 5 := by decide

end Verif
