import Verif.Model.WalName
import Verif.Props.Wal

/-!
# C107: log files are found again by their names
-/

namespace Verif.Wal

/-- Digits are read back. -/
theorem parse_digits (n m : Nat) (rest : Bytes) (h : m * 10 ^ (decimalDigits n).length + n < 2 ^ 64) :
    parseUintFrom (decimalDigits n ++ rest) m = parseUintFrom rest (m * 10 ^ (decimalDigits n).length + n) := by
  induction n using decimalDigits.induct generalizing m rest with
  | case1 n hn =>
    rw [decimalDigits, if_pos hn] at h ⊢
    have e : (UInt8.ofNat (48 + n)).toNat = 48 + n := by simp; omega
    have h1 : ¬(UInt8.ofNat (48 + n) < 48 ∨ 57 < UInt8.ofNat (48 + n)) := by
      simp only [UInt8.lt_iff_toNat_lt, e]
      simp; omega
    simp only [List.length_cons, List.length_nil, Nat.zero_add, Nat.pow_one] at h ⊢
    simp only [List.cons_append, List.nil_append, parseUintFrom, if_neg h1, e]
    rw [if_neg (by omega)]
    congr 1
    omega
  | case2 n hn ih =>
    rw [decimalDigits, if_neg hn] at h ⊢
    simp only [List.length_append, List.length_cons, List.length_nil, Nat.zero_add, Nat.pow_succ] at h ⊢
    have hd : m * 10 ^ (decimalDigits (n / 10)).length + n / 10 < 2 ^ 64 := by
      have : m * (10 ^ (decimalDigits (n / 10)).length * 10) = 10 * (m * 10 ^ (decimalDigits (n / 10)).length) := by
        rw [← Nat.mul_assoc]; omega
      omega
    rw [List.append_assoc, ih m _ hd]
    have e : (UInt8.ofNat (48 + n % 10)).toNat = 48 + n % 10 := by simp; omega
    have h1 : ¬(UInt8.ofNat (48 + n % 10) < 48 ∨ 57 < UInt8.ofNat (48 + n % 10)) := by
      simp only [UInt8.lt_iff_toNat_lt, e]
      simp; omega
    have hv : (m * 10 ^ (decimalDigits (n / 10)).length + n / 10) * 10 + (48 + n % 10 - 48) =
        m * (10 ^ (decimalDigits (n / 10)).length * 10) + n := by
      rw [Nat.add_mul, Nat.mul_assoc]; omega
    simp only [List.cons_append, List.nil_append, parseUintFrom, if_neg h1, e, hv]
    rw [if_neg (by omega)]

theorem digits_ne (n : Nat) : decimalDigits n ≠ [] := by
  rw [decimalDigits]
  split <;> simp

theorem digits_head (n : Nat) : ∃ d, d < 10 ∧ (decimalDigits n).head? = some (UInt8.ofNat (48 + d)) := by
  induction n using decimalDigits.induct with
  | case1 n hn => exact ⟨n, hn, by rw [decimalDigits, if_pos hn]; rfl⟩
  | case2 n hn ih =>
    obtain ⟨d, hd, e⟩ := ih
    refine ⟨d, hd, ?_⟩
    rw [decimalDigits, if_neg hn, List.head?_append, e]
    rfl

theorem parseUint_digits (n : Nat) (h : n < 2 ^ 64) : parseUint (decimalDigits n) = some (n, false) := by
  have := parse_digits n 0 [] (by omega)
  simp only [List.append_nil, Nat.zero_mul, Nat.zero_add] at this
  rw [parseUint, if_neg (digits_ne n), this]
  rfl

/-- A number in a name is read back. -/
theorem parse_format (i : Int64) : parseIntValue (formatInt i) = i := by
  have hlo := Int64.le_toInt i
  have hhi := Int64.toInt_lt i
  by_cases hneg : i.toInt < 0
  · have hn : i.toInt.natAbs < 2 ^ 64 := by omega
    simp only [formatInt, if_pos hneg, parseIntValue, List.head?_cons, List.drop_one, List.tail_cons, or_true, if_true,
      parseUint_digits _ hn]
    rw [if_neg (by omega)]
    have : (-(i.toInt.natAbs : Int)) = i.toInt := by omega
    rw [this, Int64.ofInt_toInt]
  · have hn : i.toInt.natAbs < 2 ^ 64 := by omega
    obtain ⟨d, hd, e⟩ := digits_head i.toInt.natAbs
    have e' : (UInt8.ofNat (48 + d)).toNat = 48 + d := by simp; omega
    have h45 : (decimalDigits i.toInt.natAbs).head? ≠ some 45 := by
      rw [e]; intro h
      have := congrArg UInt8.toNat (Option.some.inj h)
      rw [e'] at this; simp at this; omega
    have h43 : (decimalDigits i.toInt.natAbs).head? ≠ some 43 := by
      rw [e]; intro h
      have := congrArg UInt8.toNat (Option.some.inj h)
      rw [e'] at this; simp at this; omega
    simp only [formatInt, if_neg hneg, parseIntValue, h45, h43, or_self, if_false, parseUint_digits _ hn]
    rw [if_neg (by omega)]
    have : ((i.toInt.natAbs : Nat) : Int) = i.toInt := by omega
    rw [this, Int64.ofInt_toInt]

theorem timeIdOf_text (n : Name) : timeIdOf n.text = some (match n with | .log t => some t | _ => none) := by
  have key : ∀ (a e : Bytes), e.length = 4 → timeIdOf (a ++ e) = some (if e = logExt then some (parseIntValue a) else none) := by
    intro a e he
    have h1 : ¬(a ++ e).length < 4 := by simp; omega
    have h2 : (a ++ e).length - 4 = a.length := by simp; omega
    rw [timeIdOf, if_neg h1, h2, List.drop_left, List.take_left]
    split <;> rfl
  cases n with
  | log t => rw [Name.text, key _ _ (by decide +kernel), if_pos rfl, parse_format]
  | tmp t => rw [Name.text, key _ _ (by decide +kernel), if_neg (by decide +kernel)]
  | corrupt t =>
    have : Name.text (.corrupt t) = (formatInt t ++ ".COR".toUTF8.toList) ++ "RUPT".toUTF8.toList := by
      rw [Name.text, List.append_assoc]
      congr 1
      decide +kernel
    rw [this, key _ _ (by decide +kernel), if_neg (by decide +kernel)]

theorem allNames_dir (d : Dir) (acc : List Int64) : allNames (d.map (·.1.text)) acc = some (acc ++ d.all) := by
  induction d generalizing acc with
  | nil => simp [allNames, Dir.all]
  | cons p d ih =>
    rw [List.map_cons, allNames, timeIdOf_text]
    obtain ⟨n, c⟩ := p
    cases n <;> simp [ih, Dir.all]

/-- The last byte of a name. -/
def lastOf : Name → UInt8
  | .log _ => 103
  | .tmp _ => 112
  | .corrupt _ => 84

end Verif.Wal

namespace Verif
open Wal

/-- C107: the names of the files that `put`, a crash in the middle of it and a damaged log leave are told apart: in a directory of such
files, `all` returns the numbers of the logs, exactly, in their order. -/
theorem C107_all (d : Dir) : allNames (d.map (·.1.text)) [] = some d.all := by
  rw [allNames_dir, List.nil_append]

/-- C107: different logs have different names, also from temporary and damaged ones. -/
theorem C107_names_differ (a b : Name) (h : a.text = b.text) : a = b := by
  have hlast : ∀ n : Name, n.text.getLast? = some (lastOf n) := by
    intro n
    cases n <;> simp only [Name.text, logExt, tmpExt, corruptExt, lastOf] <;>
      rw [List.getLast?_append, Option.or_eq_some_iff] <;> left <;> decide +kernel
  have hl : lastOf a = lastOf b := by
    have := hlast a
    rw [h, hlast b] at this
    exact (Option.some.inj this).symm
  have hf : ∀ s t : Int64, formatInt s = formatInt t → s = t := fun s t e => by rw [← parse_format s, e, parse_format]
  cases a <;> cases b <;> simp only [Name.text, lastOf, List.append_cancel_right_eq] at h hl <;> first
    | exact congrArg _ (hf _ _ h)
    | exact absurd hl (by decide)

example : (Name.log (-12)).text = "-12.log".toUTF8.toList := by decide +kernel

/-- C107 (violated): a file with a name of less than four bytes in the directory, whatever else is there, is a panic. -/
theorem C107_short_violated (before after : List Bytes) (name : Bytes) (h : name.length < 4) (acc : List Int64) :
    allNames (before ++ name :: after) acc = none := by
  induction before generalizing acc with
  | nil => simp [allNames, timeIdOf, h]
  | cons n ns ih =>
    rw [List.cons_append, allNames]
    split <;> simp [ih]

/-- C107 (violated): files that are no logs of the database count as its logs: "notes.log" is the log with the number zero, and a number that is too
large is the largest. -/
theorem C107_foreign_violated : allNames ["notes.log".toUTF8.toList, "99999999999999999999.log".toUTF8.toList] [] = some [0, Int64.maxValue] := by
  decide +kernel

end Verif
