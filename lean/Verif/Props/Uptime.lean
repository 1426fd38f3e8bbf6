import Verif.Model.Uptime

/-!
# C109: the uptime shown is the time that has passed
-/

namespace Verif

/-- The seconds of a unit: a year has 365 days. -/
def Spec.unitSeconds (c : UInt8) : Option Nat :=
  if c = 121 then some (365 * 24 * 60 * 60)
  else if c = 100 then some (24 * 60 * 60)
  else if c = 104 then some (60 * 60)
  else if c = 109 then some 60
  else if c = 115 then some 1
  else none

/-- A reader of such texts: numbers with units behind them, added up. -/
def Spec.readUptime : Bytes → (total cur : Nat) → Option Nat
  | [], total, _ => some total
  | c :: cs, total, cur =>
    if 48 ≤ c ∧ c ≤ 57 then Spec.readUptime cs total (cur * 10 + (c.toNat - 48))
    else match Spec.unitSeconds c with
      | some u => Spec.readUptime cs (total + cur * u) 0
      | none => none

theorem read_digits (n : Nat) (rest : Bytes) (total cur : Nat) :
    Spec.readUptime (Wal.decimalDigits n ++ rest) total cur =
      Spec.readUptime rest total (cur * 10 ^ (Wal.decimalDigits n).length + n) := by
  have digit : ∀ (k : Nat) (rest : Bytes) (cur : Nat), k < 10 →
      Spec.readUptime (UInt8.ofNat (48 + k) :: rest) total cur = Spec.readUptime rest total (cur * 10 + k) := by
    intro k rest cur hk
    have e : (UInt8.ofNat (48 + k)).toNat = 48 + k := by simp; omega
    have h1 : 48 ≤ UInt8.ofNat (48 + k) ∧ UInt8.ofNat (48 + k) ≤ 57 := by
      simp only [UInt8.le_iff_toNat_le, e]
      simp; omega
    rw [Spec.readUptime, if_pos h1, e, Nat.add_sub_cancel_left]
  induction n using Wal.decimalDigits.induct generalizing rest cur with
  | case1 n hn =>
    rw [Wal.decimalDigits, if_pos hn]
    simpa using digit n rest cur hn
  | case2 n hn ih =>
    rw [Wal.decimalDigits, if_neg hn, List.append_assoc, ih, List.singleton_append, digit _ _ _ (by omega)]
    congr 1
    simp only [List.length_append, List.length_singleton, Nat.pow_succ]
    rw [Nat.add_mul, Nat.mul_assoc]
    omega

theorem read_part (i : Int) (hi : 0 ≤ i) (c : UInt8) (u : Nat) (hc : Spec.unitSeconds c = some u) (hd : ¬(48 ≤ c ∧ c ≤ 57))
    (rest : Bytes) (total : Nat) :
    Spec.readUptime (decimalText i ++ c :: rest) total 0 = Spec.readUptime rest (total + i.toNat * u) 0 := by
  rw [decimalText, if_neg (by omega), read_digits, Nat.zero_mul, Nat.zero_add, Spec.readUptime, if_neg hd, hc]
  have : i.natAbs = i.toNat := by omega
  simp only [this]

/-- C109: for every time that has passed, the text says how many whole seconds it was. -/
theorem C109_uptime (d : Int) (h : 0 ≤ d) : Spec.readUptime (uptime d) 0 0 = some (d / 1000000000).toNat := by
  have e1 : d.tdiv 1000000000 = d / 1000000000 := Int.tdiv_eq_ediv_of_nonneg h
  have hs : 0 ≤ d / 1000000000 := by omega
  unfold uptime
  rw [e1]
  generalize d / 1000000000 = s at hs
  have hm := Int.tdiv_eq_ediv_of_nonneg (b := 60) hs
  have hm0 : 0 ≤ s / 60 := by omega
  have hh := Int.tdiv_eq_ediv_of_nonneg (b := 60) hm0
  have hh0 : 0 ≤ s / 60 / 60 := by omega
  have hd := Int.tdiv_eq_ediv_of_nonneg (b := 24) hh0
  have hd0 : 0 ≤ s / 60 / 60 / 24 := by omega
  have hy := Int.tdiv_eq_ediv_of_nonneg (b := 365) hd0
  have rs := Int.tmod_eq_emod_of_nonneg (b := 60) hs
  have rm := Int.tmod_eq_emod_of_nonneg (b := 60) hm0
  have rh := Int.tmod_eq_emod_of_nonneg (b := 24) hh0
  have rd := Int.tmod_eq_emod_of_nonneg (b := 365) hd0
  have y := fun i hi => read_part i hi chY _ (show Spec.unitSeconds chY = some (365 * 24 * 60 * 60) from rfl) (by decide)
  have da := fun i hi => read_part i hi chD _ (show Spec.unitSeconds chD = some (24 * 60 * 60) from rfl) (by decide)
  have ho := fun i hi => read_part i hi chH _ (show Spec.unitSeconds chH = some (60 * 60) from rfl) (by decide)
  have mi := fun i hi => read_part i hi chM _ (show Spec.unitSeconds chM = some 60 from rfl) (by decide)
  have se := fun i hi => read_part i hi chS _ (show Spec.unitSeconds chS = some 1 from rfl) (by decide)
  simp only [hm, hh, hd, hy, rs, rm, rh, rd]
  split
  · rw [y _ (by omega), da _ (by omega), ho _ (by omega), mi _ (by omega), se _ (by omega), Spec.readUptime]
    congr 1
    omega
  split
  · rw [da _ (by omega), ho _ (by omega), mi _ (by omega), se _ (by omega), Spec.readUptime]
    congr 1
    omega
  split
  · rw [ho _ (by omega), mi _ (by omega), se _ (by omega), Spec.readUptime]
    congr 1
    omega
  split
  · rw [mi _ (by omega), se _ (by omega), Spec.readUptime]
    congr 1
    omega
  · rw [se _ (by omega), Spec.readUptime]
    congr 1
    omega

/-- Two days, three hours, four minutes, five seconds and a bit. -/
example : uptime 183845999999999 = "2d3h4m5s".toUTF8.toList := by decide +kernel

/-- The bound of the numbers of each unit: there is none for years. -/
def Spec.partInRange (p : Nat × UInt8) : Prop :=
  p.2 = 121 ∨ p.2 = 100 ∧ p.1 < 365 ∨ p.2 = 104 ∧ p.1 < 24 ∨ p.2 = 109 ∧ p.1 < 60 ∨ p.2 = 115 ∧ p.1 < 60

/-- Every number is in its range and the first is not zero, unless it is the only one. -/
def Spec.inRange (parts : List (Nat × UInt8)) : Prop :=
  (∀ p ∈ parts, Spec.partInRange p) ∧ ∀ p q, parts = p :: q → q ≠ [] → 0 < p.1

/-- C109: every part of the text is smaller than one of the next larger unit, the first is not zero unless it is the only one, and units come in
falling order down to seconds. -/
theorem C109_parts (d : Int) (h : 0 ≤ d) : ∃ parts : List (Nat × UInt8),
    uptime d = parts.flatMap (fun p => Wal.decimalDigits p.1 ++ [p.2]) ∧ Spec.inRange parts ∧
      parts ≠ [] ∧ parts.map (·.2) <:+ [121, 100, 104, 109, 115] := by
  have e1 : d.tdiv 1000000000 = d / 1000000000 := Int.tdiv_eq_ediv_of_nonneg h
  have hs : 0 ≤ d / 1000000000 := by omega
  unfold uptime
  rw [e1]
  generalize d / 1000000000 = s at hs
  have hm := Int.tdiv_eq_ediv_of_nonneg (b := 60) hs
  have hm0 : 0 ≤ s / 60 := by omega
  have hh := Int.tdiv_eq_ediv_of_nonneg (b := 60) hm0
  have hh0 : 0 ≤ s / 60 / 60 := by omega
  have hd := Int.tdiv_eq_ediv_of_nonneg (b := 24) hh0
  have hd0 : 0 ≤ s / 60 / 60 / 24 := by omega
  have hy := Int.tdiv_eq_ediv_of_nonneg (b := 365) hd0
  have rs := Int.tmod_eq_emod_of_nonneg (b := 60) hs
  have rm := Int.tmod_eq_emod_of_nonneg (b := 60) hm0
  have rh := Int.tmod_eq_emod_of_nonneg (b := 24) hh0
  have rd := Int.tmod_eq_emod_of_nonneg (b := 365) hd0
  have t : ∀ i : Int, 0 ≤ i → decimalText i = Wal.decimalDigits i.toNat := by
    intro i hi
    rw [decimalText, if_neg (by omega)]
    congr 1
    omega
  simp only [hm, hh, hd, hy, rs, rm, rh, rd]
  have b1 : (s % 60).toNat < 60 := by omega
  have b2 : (s / 60 % 60).toNat < 60 := by omega
  have b3 : (s / 60 / 60 % 24).toNat < 24 := by omega
  have b4 : (s / 60 / 60 / 24 % 365).toNat < 365 := by omega
  split
  · refine ⟨[((s / 60 / 60 / 24 / 365).toNat, chY), ((s / 60 / 60 / 24 % 365).toNat, chD), ((s / 60 / 60 % 24).toNat, chH),
      ((s / 60 % 60).toNat, chM), ((s % 60).toNat, chS)], ?_, ?_, by simp, ⟨[], rfl⟩⟩
    · rw [t _ (by omega), t _ (by omega), t _ (by omega), t _ (by omega), t _ (by omega)]; simp
    · refine ⟨?_, ?_⟩
      · simp [Spec.partInRange, chY, chD, chH, chM, chS]; omega
      · rintro p q e -; simp only [List.cons.injEq] at e; rw [← e.1]; simp only; omega
  split
  · refine ⟨[((s / 60 / 60 / 24).toNat, chD), ((s / 60 / 60 % 24).toNat, chH), ((s / 60 % 60).toNat, chM), ((s % 60).toNat, chS)], ?_, ?_,
      by simp, ⟨[121], rfl⟩⟩
    · rw [t _ (by omega), t _ (by omega), t _ (by omega), t _ (by omega)]; simp
    · refine ⟨?_, ?_⟩
      · simp [Spec.partInRange, chD, chH, chM, chS]; omega
      · rintro p q e -; simp only [List.cons.injEq] at e; rw [← e.1]; simp only; omega
  split
  · refine ⟨[((s / 60 / 60).toNat, chH), ((s / 60 % 60).toNat, chM), ((s % 60).toNat, chS)], ?_, ?_, by simp, ⟨[121, 100], rfl⟩⟩
    · rw [t _ (by omega), t _ (by omega), t _ (by omega)]; simp
    · refine ⟨?_, ?_⟩
      · simp [Spec.partInRange, chH, chM, chS]; omega
      · rintro p q e -; simp only [List.cons.injEq] at e; rw [← e.1]; simp only; omega
  split
  · refine ⟨[((s / 60).toNat, chM), ((s % 60).toNat, chS)], ?_, ?_, by simp, ⟨[121, 100, 104], rfl⟩⟩
    · rw [t _ (by omega), t _ (by omega)]; simp
    · refine ⟨?_, ?_⟩
      · simp [Spec.partInRange, chM, chS]; omega
      · rintro p q e -; simp only [List.cons.injEq] at e; rw [← e.1]; simp only; omega
  · refine ⟨[(s.toNat, chS)], ?_, ?_, by simp, ⟨[121, 100, 104, 109], rfl⟩⟩
    · rw [t _ (by omega)]; simp
    · refine ⟨?_, ?_⟩
      · simp [Spec.partInRange, chS]; omega
      · rintro p q e hq; simp only [List.cons.injEq] at e; exact absurd e.2.symm hq

example : uptime 0 = "0s".toUTF8.toList ∧ uptime 31536000000000000 = "1y0d0h0m0s".toUTF8.toList := by decide +kernel

end Verif
