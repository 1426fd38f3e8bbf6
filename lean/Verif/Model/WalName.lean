import Verif.Model.Wal

/-!
# The names of the files of the write ahead log

wal/file.go:161-196, 222-235: names are texts. `Wal` works with the parsed names.
-/

namespace Verif.Wal

/-- strconv.FormatUint(n, 10). -/
def decimalDigits (n : Nat) : Bytes :=
  if n < 10 then [UInt8.ofNat (48 + n)] else decimalDigits (n / 10) ++ [UInt8.ofNat (48 + n % 10)]
termination_by n
decreasing_by omega

/-- strconv.FormatInt(i, 10). -/
def formatInt (i : Int64) : Bytes :=
  if i.toInt < 0 then 45 :: decimalDigits i.toInt.natAbs else decimalDigits i.toInt.natAbs

/-- wal/wal.go:30-32. -/
def logExt : Bytes := ".log".toUTF8.toList
def tmpExt : Bytes := ".tmp".toUTF8.toList
def corruptExt : Bytes := ".CORRUPT".toUTF8.toList

/-- wal/file.go:222-235 `logPath`, `tmpPath`, `corruptPath`: the name in the directory. -/
def Name.text : Name → Bytes
  | .log t => formatInt t ++ logExt
  | .tmp t => formatInt t ++ tmpExt
  | .corrupt t => formatInt t ++ corruptExt

/-- The loop of strconv.ParseUint(s, 10, 64) from the number `n` on: the value and whether it is a range error; `none` is a syntax error. -/
def parseUintFrom : Bytes → Nat → Option (Nat × Bool)
  | [], n => some (n, false)
  | c :: cs, n =>
    if c < 48 ∨ 57 < c then none
    else if 2 ^ 64 ≤ n * 10 + (c.toNat - 48) then some (2 ^ 64 - 1, true)
    else parseUintFrom cs (n * 10 + (c.toNat - 48))

/-- strconv.ParseUint(s, 10, 64). -/
def parseUint (s : Bytes) : Option (Nat × Bool) := if s = [] then none else parseUintFrom s 0

/-- The value that strconv.ParseInt(s, 10, 64) returns, whatever its error (wal/file.go:191 drops it): zero for what is not a number, the
nearest bound for what is out of range. -/
def parseIntValue (s : Bytes) : Int64 :=
  let neg := s.head? = some 45
  let s' := if s.head? = some 43 ∨ neg then s.drop 1 else s
  match parseUint s' with
  | none => 0
  | some (n, _) =>
    if neg then (if 2 ^ 63 < n then Int64.minValue else Int64.ofInt (-(n : Int)))
    else if 2 ^ 63 ≤ n then Int64.maxValue else Int64.ofInt n

/-- wal/file.go:184-193, one name of the directory: `none` is a panic (a name of less than four bytes), `some none` is skipped. -/
def timeIdOf (name : Bytes) : Option (Option Int64) :=
  if name.length < 4 then none
  else if name.drop (name.length - 4) = logExt then some (some (parseIntValue (name.take (name.length - 4))))
  else some none

/-- wal/file.go:184-196, the loop of `all` over the names in the order of modification (`none`: a panic). -/
def allNames : List Bytes → List Int64 → Option (List Int64)
  | [], acc => some acc
  | n :: ns, acc =>
    match timeIdOf n with
    | none => none
    | some none => allNames ns acc
    | some (some t) => allNames ns (acc ++ [t])

end Verif.Wal
