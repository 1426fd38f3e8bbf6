import Mathlib.Logic.Function.Basic
import Mathlib.Data.Nat.Bitwise

/-!
# The consistent hash that picks shards and locks

hash/consistent.go, hash/rand.go, hash/modulo.go. Arrays of `uint16` are functions on `Nat` with an explicit size; reading outside
the size is an index panic. Values stay below the size, which is at most 65535 in the theorems, so `uint16` never wraps; the
conversions that can truncate are written as `% 65536`.
-/

namespace Verif

/-- State of the generator (hash/rand.go:21-54). -/
structure Flea where
  a : UInt32
  b : UInt32
  c : UInt32
  d : UInt32
deriving DecidableEq, Repr

/-- `bits.RotateLeft32`. -/
def rotl32 (x : UInt32) (k : UInt32) : UInt32 := (x <<< k) ||| (x >>> (32 - k))

/-- hash/rand.go:46-54 `fleaRound`. -/
def Flea.round (f : Flea) : Flea :=
  let e := f.a - rotl32 f.b 27
  let a := f.b ^^^ rotl32 f.c 17
  ⟨a, f.c + f.d, f.d + e, e + a⟩

/-- hash/rand.go:21-44 `fleaInit`: three rounds. -/
def Flea.init (key : UInt64) : Flea :=
  let seed := ((key >>> 32) ^^^ key).toUInt32
  (Flea.mk 0xf1ea5eed seed seed seed).round.round.round

/-- hash/modulo.go:5 `FastMod`. -/
def fastMod (x m : UInt64) : UInt32 := ((x * m) >>> 32).toUInt32

/-- `uint16(FastMod(uint64(hd), uint64(m)))` (hash/consistent.go:72, 75). -/
def Flea.pick (f : Flea) (m : Nat) : Nat := (fastMod f.d.toUInt64 (UInt64.ofNat m)).toNat % 65536

/-- hash/consistent.go:5-24 `Consistent`. `R` is kept with the top of the stack first. -/
structure Anchor where
  size : Nat
  A : Nat → Nat
  K : Nat → Nat
  W : Nat → Nat
  L : Nat → Nat
  R : List Nat
  N : Nat

namespace Anchor

/-- hash/consistent.go:35-51 `InitConsistent(blocks, used)`; `none` is a panic (`used` a multiple of 65536 makes the second loop
run past the end of `R`). -/
def init (blocks used : Nat) : Option Anchor :=
  let u := used % 65536
  let first := (blocks % 65536 + 65535) % 65536
  let cnt := first + 1 - u
  if u = 0 ∨ blocks < used ∨ blocks - used < cnt then none
  else some {
    size := blocks
    A := fun b => if u ≤ b ∧ b ≤ first then b else 0
    K := fun b => if b < u then b else 0
    W := fun b => if b < u then b else 0
    L := fun b => if b < u then b else 0
    R := List.replicate (blocks - used - cnt) 0 ++ List.range' u cnt
    N := u }

/-- The inner loop of `FindBlock` (hash/consistent.go:76-78): `for A[h] >= A[b] { h = K[h] }`. Out of fuel or out of range is
`none`. -/
def chase (s : Anchor) (t : Nat) : Nat → Nat → Option Nat
  | 0, _ => none
  | f + 1, h => if h < s.size then (if t ≤ s.A h then chase s t f (s.K h) else some h) else none

/-- The outer loop of `FindBlock` (hash/consistent.go:73-80). -/
def walk (s : Anchor) : Nat → Flea → Nat → Option Nat
  | 0, _, _ => none
  | f + 1, fl, b =>
    if b < s.size then
      if 0 < s.A b then (chase s (s.A b) f (fl.round.pick (s.A b))).bind (walk s f fl.round)
      else some b
    else none

/-- hash/consistent.go:69-82 `FindBlock`, running at most `fuel` iterations of each loop. -/
def find (s : Anchor) (fuel : Nat) (key : UInt64) : Option Nat :=
  walk s fuel (Flea.init key) ((Flea.init key).pick s.size)

/-- `FindBlock(key)` returns `b`: it does so for every large enough number of iterations. -/
def Finds (s : Anchor) (key : UInt64) (b : Nat) : Prop := ∃ n, ∀ fuel, n ≤ fuel → s.find fuel key = some b

/-- hash/consistent.go:157-166 `AddBlock` (on an empty stack the code panics; callers are constrained in the theorems). -/
def add (s : Anchor) : Anchor :=
  match s.R with
  | [] => s
  | b :: R =>
    let L := Function.update s.L (s.W s.N) s.N
    { s with
      R := R
      A := Function.update s.A b 0
      L := L
      W := Function.update s.W (L b) b
      K := Function.update s.K b b
      N := s.N + 1 }

/-- hash/consistent.go:176-186 `RemoveBlock`. -/
def remove (s : Anchor) (b : Nat) : Anchor :=
  if s.A b ≠ 0 then s
  else
    let N := s.N - 1
    { s with
      R := b :: s.R
      N := N
      A := Function.update s.A b N
      W := Function.update s.W (s.L b) (s.W N)
      K := Function.update s.K b (s.W N)
      L := Function.update s.L (s.W N) (s.L b) }

end Anchor

/-- One call to the consistent hash. -/
inductive ShardOp where
  | remove (b : Nat)
  | add
deriving DecidableEq

def Anchor.step (s : Anchor) : ShardOp → Anchor
  | .remove b => s.remove b
  | .add => s.add

def Anchor.run (s : Anchor) (ops : List ShardOp) : Anchor := ops.foldl Anchor.step s

/-! ## The loops as relations -/

namespace Anchor

inductive Chase (s : Anchor) (t : Nat) : Nat → Nat → Prop
  | stop (h) : h < s.size → s.A h < t → Chase s t h h
  | step (h w) : h < s.size → t ≤ s.A h → Chase s t (s.K h) w → Chase s t h w

inductive Walk (s : Anchor) : Flea → Nat → Nat → Prop
  | stop (fl b) : b < s.size → s.A b = 0 → Walk s fl b b
  | step (fl b h w) : b < s.size → 0 < s.A b → Chase s (s.A b) (fl.round.pick (s.A b)) h → Walk s fl.round h w → Walk s fl b w

theorem Chase.fuel {s : Anchor} {t h w : Nat} (c : Chase s t h w) : ∃ n, ∀ fuel, n ≤ fuel → s.chase t fuel h = some w := by
  induction c with
  | stop h h1 h2 =>
    refine ⟨1, fun fuel hf => ?_⟩
    obtain ⟨f, rfl⟩ : ∃ f, fuel = f + 1 := ⟨fuel - 1, by omega⟩
    rw [chase, if_pos h1, if_neg (by omega)]
  | step h w h1 h2 _ ih =>
    obtain ⟨n, hn⟩ := ih
    refine ⟨n + 1, fun fuel hf => ?_⟩
    obtain ⟨f, rfl⟩ : ∃ f, fuel = f + 1 := ⟨fuel - 1, by omega⟩
    rw [chase, if_pos h1, if_pos h2, hn f (by omega)]

theorem Chase.of_fuel {s : Anchor} {t w : Nat} : ∀ {fuel h}, s.chase t fuel h = some w → Chase s t h w
  | 0, h, e => by simp [chase] at e
  | f + 1, h, e => by
    rw [chase] at e
    split at e
    · rename_i h1
      split at e
      · rename_i h2; exact .step h w h1 h2 (of_fuel e)
      · rename_i h2; cases e; exact .stop w h1 (by omega)
    · simp at e

theorem Walk.fuel {s : Anchor} {fl : Flea} {b w : Nat} (c : Walk s fl b w) : ∃ n, ∀ fuel, n ≤ fuel → s.walk fuel fl b = some w := by
  induction c with
  | stop fl b h1 h2 =>
    refine ⟨1, fun fuel hf => ?_⟩
    obtain ⟨f, rfl⟩ : ∃ f, fuel = f + 1 := ⟨fuel - 1, by omega⟩
    rw [walk, if_pos h1, if_neg (by omega)]
  | step fl b h w h1 h2 hc _ ih =>
    obtain ⟨n, hn⟩ := ih
    obtain ⟨m, hm⟩ := hc.fuel
    refine ⟨n + m + 1, fun fuel hf => ?_⟩
    obtain ⟨f, rfl⟩ : ∃ f, fuel = f + 1 := ⟨fuel - 1, by omega⟩
    rw [walk, if_pos h1, if_pos h2, hm f (by omega), Option.bind_some, hn f (by omega)]

theorem Walk.of_fuel {s : Anchor} {w : Nat} : ∀ {fuel fl b}, s.walk fuel fl b = some w → Walk s fl b w
  | 0, fl, b, e => by simp [walk] at e
  | f + 1, fl, b, e => by
    rw [walk] at e
    split at e
    · rename_i h1
      split at e
      · rename_i h2
        obtain ⟨h, hc, hw⟩ := Option.bind_eq_some_iff.1 e
        exact .step fl b h w h1 h2 (Chase.of_fuel hc) (of_fuel hw)
      · rename_i h2; cases e; exact .stop fl w h1 (by omega)
    · simp at e

theorem finds_iff (s : Anchor) (key : UInt64) (w : Nat) :
    s.Finds key w ↔ Walk s (Flea.init key) ((Flea.init key).pick s.size) w :=
  ⟨fun ⟨n, h⟩ => Walk.of_fuel (h n (Nat.le_refl _)), fun h => h.fuel⟩

theorem Chase.det {s : Anchor} {t h w w' : Nat} (c : Chase s t h w) (c' : Chase s t h w') : w = w' := by
  obtain ⟨n, hn⟩ := c.fuel
  obtain ⟨m, hm⟩ := c'.fuel
  have a := hn (n + m) (by omega)
  rw [hm (n + m) (by omega)] at a
  exact (Option.some.inj a).symm

theorem Finds.det {s : Anchor} {key : UInt64} {w w' : Nat} (c : s.Finds key w) (c' : s.Finds key w') : w = w' := by
  obtain ⟨n, hn⟩ := c
  obtain ⟨m, hm⟩ := c'
  have a := hn (n + m) (by omega)
  rw [hm (n + m) (by omega)] at a
  exact (Option.some.inj a).symm

theorem Chase.lt {s : Anchor} {t h w : Nat} (c : Chase s t h w) : w < s.size ∧ s.A w < t := by
  induction c with
  | stop h h1 h2 => exact ⟨h1, h2⟩
  | step h w _ _ _ ih => exact ih

theorem Walk.working {s : Anchor} {fl : Flea} {b w : Nat} (c : Walk s fl b w) : w < s.size ∧ s.A w = 0 := by
  induction c with
  | stop fl b h1 h2 => exact ⟨h1, h2⟩
  | step fl b h w _ _ _ _ ih => exact ih

theorem pick_lt (f : Flea) (m : Nat) (h0 : 0 < m) (hm : m < 2 ^ 32) : f.pick m < m := by
  have hd : f.d.toNat < 2 ^ 32 := UInt32.toNat_lt _
  have hlt : f.d.toNat * m / 2 ^ 32 < m := by
    rw [Nat.div_lt_iff_lt_mul (by decide), Nat.mul_comm]
    exact Nat.mul_lt_mul_of_pos_left hd h0
  have hprod : f.d.toNat * m < 2 ^ 64 := by
    calc f.d.toNat * m < 2 ^ 32 * m := Nat.mul_lt_mul_of_pos_right hd h0
      _ ≤ 2 ^ 32 * 2 ^ 32 := Nat.mul_le_mul_left _ (by omega)
      _ = 2 ^ 64 := by decide
  have hn : (UInt64.ofNat m).toNat = m := by
    rw [UInt64.toNat_ofNat']
    exact Nat.mod_eq_of_lt (by omega)
  have e : (fastMod f.d.toUInt64 (UInt64.ofNat m)).toNat = f.d.toNat * m / 2 ^ 32 := by
    rw [fastMod, UInt64.toNat_toUInt32, UInt64.toNat_shiftRight, UInt64.toNat_mul, hn, UInt32.toNat_toUInt64,
      Nat.mod_eq_of_lt hprod, show (32 : UInt64).toNat % 64 = 32 by rfl, Nat.shiftRight_eq_div_pow]
    exact Nat.mod_eq_of_lt (by omega)
  rw [pick', e]
  exact Nat.lt_of_le_of_lt (Nat.mod_le _ _) hlt
where pick' : f.pick m = (fastMod f.d.toUInt64 (UInt64.ofNat m)).toNat % 65536 := rfl

/-! ## Invariant over removals -/

structure Inv (n : Nat) (s : Anchor) : Prop where
  size : s.size = n
  hn : n ≤ 65535
  N1 : 1 ≤ s.N
  Nn : s.N ≤ n
  a : ∀ x, s.A x ≠ 0 → s.N ≤ s.A x ∧ s.A x < n
  w : ∀ p, p < s.N → s.W p < n ∧ s.A (s.W p) = 0 ∧ s.L (s.W p) = p
  l : ∀ x, x < n → s.A x = 0 → s.L x < s.N ∧ s.W (s.L x) = x ∧ s.K x = x
  chain : ∀ p, p < s.N → Chase s 1 p (s.W p)
  tchain : ∀ c, s.A c ≠ 0 → ∀ p, p < s.A c → ∃ w, Chase s (s.A c) p w

theorem inv_init (n : Nat) (h1 : 1 ≤ n) (hn : n ≤ 65535) : ∃ s, init n n = some s ∧ Inv n s ∧ s.R = [] ∧ ∀ x, s.A x = 0 := by
  have e1 : n % 65536 = n := Nat.mod_eq_of_lt (by omega)
  have e2 : (n + 65535) % 65536 = n - 1 := by omega
  have hA : ∀ x, (if n ≤ x ∧ x ≤ n - 1 then x else 0) = 0 := fun x => by rw [if_neg]; omega
  have hI : init n n = some ⟨n, (fun b => if n ≤ b ∧ b ≤ n - 1 then b else 0), (fun b => if b < n then b else 0),
      (fun b => if b < n then b else 0), (fun b => if b < n then b else 0), [], n⟩ := by
    simp only [init, e1, e2]
    rw [if_neg (by omega)]
    have e3 : n - 1 + 1 - n = 0 := by omega
    simp [e3]
  refine ⟨_, hI, ⟨rfl, hn, h1, Nat.le_refl _, ?_, ?_, ?_, ?_, ?_⟩, rfl, hA⟩
  · intro x hx; exact absurd (hA x) hx
  · intro p hp
    have hp' : p < n := hp
    simp only [if_pos hp']
    exact ⟨hp', hA p, trivial⟩
  · intro x hx _
    simp only [if_pos hx]
    exact ⟨hx, trivial, trivial⟩
  · intro p hp
    have hp' : p < n := hp
    simp only [if_pos hp']
    refine .stop p hp' ?_
    show (if n ≤ p ∧ p ≤ n - 1 then p else 0) < 1
    rw [hA]; decide
  · intro c hc; exact absurd (hA c) hc

/-- Removing a working block does not change a chase whose threshold is above the new size. -/
theorem Chase.mono {s : Anchor} {t h w b : Nat} (c : Chase s t h w) (hb : s.A b = 0) (ht : s.N - 1 < t) :
    Chase (s.remove b) t h w := by
  have hA : (s.remove b).A = Function.update s.A b (s.N - 1) := by simp [remove, hb]
  have hK : (s.remove b).K = Function.update s.K b (s.W (s.N - 1)) := by simp [remove, hb]
  have hS : (s.remove b).size = s.size := by simp [remove, hb]
  induction c with
  | stop h h1 h2 =>
    refine .stop h (by rw [hS]; exact h1) ?_
    rw [hA]
    by_cases e : h = b
    · subst e; rw [Function.update_self]; exact ht
    · rw [Function.update_of_ne e]; exact h2
  | step h w h1 h2 _ ih =>
    have e : h ≠ b := by rintro rfl; omega
    refine .step h w (by rw [hS]; exact h1) ?_ ?_
    · rw [hA, Function.update_of_ne e]; exact h2
    · rw [hK, Function.update_of_ne e]; exact ih

theorem inv_remove {n : Nat} {s : Anchor} (I : Inv n s) (b : Nat) (hbn : b < n) (hb : s.A b = 0) (h2 : 2 ≤ s.N) :
    Inv n (s.remove b) := by
  have hA : (s.remove b).A = Function.update s.A b (s.N - 1) := by simp [remove, hb]
  have hK : (s.remove b).K = Function.update s.K b (s.W (s.N - 1)) := by simp [remove, hb]
  have hW : (s.remove b).W = Function.update s.W (s.L b) (s.W (s.N - 1)) := by simp [remove, hb]
  have hL : (s.remove b).L = Function.update s.L (s.W (s.N - 1)) (s.L b) := by simp [remove, hb]
  have hN : (s.remove b).N = s.N - 1 := by simp [remove, hb]
  have hS : (s.remove b).size = s.size := by simp [remove, hb]
  have hNn := I.Nn
  obtain ⟨hLb, hWLb, hKb⟩ := I.l b hbn hb
  have hlast := I.w (s.N - 1) (by omega)
  have hb' : (s.remove b).A b ≠ 0 := by rw [hA, Function.update_self]; omega
  -- positions other than that of `b` keep their content
  have hWne : ∀ p, p < s.N - 1 → p ≠ s.L b → s.W p ≠ b := fun p hp hne e => hne (by rw [← (I.w p (by omega)).2.2, e])
  have hlastne : s.L b ≠ s.N - 1 → s.W (s.N - 1) ≠ b := fun hne e => hne (by rw [← hlast.2.2, e])
  have hinj : ∀ p, p < s.N - 1 → s.W p ≠ s.W (s.N - 1) := fun p hp e => by
    have := (I.w p (by omega)).2.2
    rw [e, hlast.2.2] at this
    omega
  refine ⟨by rw [hS, I.size], I.hn, by rw [hN]; omega, by rw [hN]; omega, ?_, ?_, ?_, ?_, ?_⟩
  · intro x hx
    rw [hA, hN] at *
    by_cases e : x = b
    · subst e; rw [Function.update_self]; omega
    · rw [Function.update_of_ne e] at hx ⊢
      have := I.a x hx
      omega
  · intro p hp
    rw [hN] at hp
    rw [hW, hA, hL]
    by_cases e : p = s.L b
    · subst e
      rw [Function.update_self, Function.update_self]
      refine ⟨hlast.1, ?_, rfl⟩
      rw [Function.update_of_ne (hlastne (by omega))]
      exact hlast.2.1
    · rw [Function.update_of_ne e]
      have := I.w p (by omega)
      rw [Function.update_of_ne (hWne p hp e), Function.update_of_ne (hinj p hp)]
      exact this
  · intro x hx hx0
    rw [hA] at hx0
    have e : x ≠ b := by
      rintro rfl; rw [Function.update_self] at hx0; omega
    rw [Function.update_of_ne e] at hx0
    obtain ⟨h1, h3, h4⟩ := I.l x hx hx0
    rw [hL, hW, hK, hN, Function.update_of_ne e]
    by_cases e2 : x = s.W (s.N - 1)
    · rw [← e2, Function.update_self, Function.update_self]
      refine ⟨?_, rfl, h4⟩
      have : s.L b ≠ s.N - 1 := by
        intro e3; rw [e3, ← e2] at hWLb; exact e hWLb
      omega
    · rw [Function.update_of_ne e2]
      have hLx : s.L x ≠ s.N - 1 := by
        intro e3; rw [e3] at h3; exact e2 h3.symm
      have hLxb : s.L x ≠ s.L b := by
        intro e3; rw [e3, hWLb] at h3; exact e h3.symm
      rw [Function.update_of_ne hLxb]
      exact ⟨by omega, h3, h4⟩
  · intro p hp
    rw [hN] at hp
    rw [hW]
    have c := I.chain p (by omega)
    have hAw := (I.w p (by omega)).2.1
    by_cases e : p = s.L b
    · subst e
      rw [Function.update_self]
      rw [hWLb] at c
      -- chase to `b`, then one more step
      have hlne := hlastne (by omega)
      have gen : ∀ h w, Chase s 1 h w → w = b → Chase (s.remove b) 1 h (s.W (s.N - 1)) := by
        intro h w c
        induction c with
        | stop h h1 h3 =>
          rintro rfl
          refine .step h _ (by rw [hS]; exact h1) (by rw [hA, Function.update_self]; omega) ?_
          rw [hK, Function.update_self]
          refine .stop _ (by rw [hS, I.size]; exact hlast.1) ?_
          rw [hA, Function.update_of_ne hlne, hlast.2.1]; decide
        | step h w h1 h3 _ ih =>
          intro ew
          have e : h ≠ b := by rintro rfl; omega
          refine .step h _ (by rw [hS]; exact h1) (by rw [hA, Function.update_of_ne e]; exact h3) ?_
          rw [hK, Function.update_of_ne e]
          exact ih ew
      exact gen _ _ c rfl
    · rw [Function.update_of_ne e]
      have hne := hWne p hp e
      have gen : ∀ h w, Chase s 1 h w → w ≠ b → Chase (s.remove b) 1 h w := by
        intro h w c
        induction c with
        | stop h h1 h3 =>
          intro hne
          exact .stop h (by rw [hS]; exact h1) (by rw [hA, Function.update_of_ne hne]; exact h3)
        | step h w h1 h3 _ ih =>
          intro hne
          have e : h ≠ b := by rintro rfl; omega
          refine .step h _ (by rw [hS]; exact h1) (by rw [hA, Function.update_of_ne e]; exact h3) ?_
          rw [hK, Function.update_of_ne e]
          exact ih hne
      exact gen _ _ c hne
  · intro c hc p hp
    by_cases e : c = b
    · subst e
      rw [hA, Function.update_self] at hp ⊢
      -- the position exists in the current working set
      have hch := I.chain p (by omega)
      have hAw := (I.w p (by omega)).2.1
      by_cases e2 : p = s.L c
      · subst e2
        rw [hWLb] at hch
        have hlne := hlastne (by omega)
        refine ⟨s.W (s.N - 1), ?_⟩
        have gen : ∀ h w, Chase s 1 h w → w = c → Chase (s.remove c) (s.N - 1) h (s.W (s.N - 1)) := by
          intro h w c'
          induction c' with
          | stop h h1 h3 =>
            rintro rfl
            refine .step h _ (by rw [hS]; exact h1) (by rw [hA, Function.update_self]) ?_
            rw [hK, Function.update_self]
            refine .stop _ (by rw [hS, I.size]; exact hlast.1) ?_
            rw [hA, Function.update_of_ne hlne, hlast.2.1]; omega
          | step h w h1 h3 _ ih =>
            intro ew
            have e : h ≠ c := by rintro rfl; omega
            have := I.a h (by omega)
            refine .step h _ (by rw [hS]; exact h1) (by rw [hA, Function.update_of_ne e]; omega) ?_
            rw [hK, Function.update_of_ne e]
            exact ih ew
        exact gen _ _ hch rfl
      · refine ⟨s.W p, ?_⟩
        have hne := hWne p hp e2
        have gen : ∀ h w, Chase s 1 h w → w ≠ c → s.A w = 0 → Chase (s.remove c) (s.N - 1) h w := by
          intro h w c'
          induction c' with
          | stop h h1 h3 =>
            intro hne h0
            exact .stop h (by rw [hS]; exact h1) (by rw [hA, Function.update_of_ne hne]; omega)
          | step h w h1 h3 _ ih =>
            intro hne h0
            have e : h ≠ c := by rintro rfl; omega
            have := I.a h (by omega)
            refine .step h _ (by rw [hS]; exact h1) (by rw [hA, Function.update_of_ne e]; omega) ?_
            rw [hK, Function.update_of_ne e]
            exact ih hne h0
        exact gen _ _ hch hne hAw
    · rw [hA, Function.update_of_ne e] at hc hp ⊢
      obtain ⟨w, hw⟩ := I.tchain c hc p hp
      have := I.a c hc
      exact ⟨w, hw.mono hb (by omega)⟩

/-- Adding a block undoes the last removal, exactly. -/
theorem add_remove {n : Nat} {s : Anchor} (I : Inv n s) (b : Nat) (hbn : b < n) (hb : s.A b = 0) : (s.remove b).add = s := by
  have hN1 := I.N1
  obtain ⟨hLb, hWLb, hKb⟩ := I.l b hbn hb
  have hlast := I.w (s.N - 1) (by omega)
  obtain ⟨size, A, K, W, L, R, N⟩ := s
  simp only at *
  have hr : remove ⟨size, A, K, W, L, R, N⟩ b = ⟨size, Function.update A b (N - 1), Function.update K b (W (N - 1)),
      Function.update W (L b) (W (N - 1)), Function.update L (W (N - 1)) (L b), b :: R, N - 1⟩ := by
    simp [remove, hb]
  rw [hr]
  simp only [add]
  have hWN : Function.update W (L b) (W (N - 1)) (N - 1) = W (N - 1) := by
    by_cases e : N - 1 = L b
    · rw [e, Function.update_self]
    · rw [Function.update_of_ne e]
  rw [hWN, Function.update_idem, Function.update_idem, Function.update_idem]
  have hLL : Function.update L (W (N - 1)) (N - 1) = L := by
    conv_rhs => rw [← Function.update_eq_self (W (N - 1)) L, hlast.2.2]
  rw [hLL, Function.update_idem]
  have h1 : Function.update A b 0 = A := by conv_rhs => rw [← Function.update_eq_self b A, hb]
  have h2 : Function.update K b b = K := by conv_rhs => rw [← Function.update_eq_self b K, hKb]
  have h3 : Function.update W (L b) b = W := by conv_rhs => rw [← Function.update_eq_self (L b) W, hWLb]
  rw [h1, h2, h3, show N - 1 + 1 = N by omega]

/-! ## Finding -/

theorem walk_total {n : Nat} {s : Anchor} (I : Inv n s) (fl : Flea) (b : Nat) (hb : b < n) : ∃ w, Walk s fl b w := by
  induction hm : s.A b using Nat.strongRecOn generalizing b fl with
  | _ m ih =>
    subst hm
    by_cases e : s.A b = 0
    · exact ⟨b, .stop fl b (by rw [I.size]; exact hb) e⟩
    · have ha := I.a b e
      have hn := I.hn
      obtain ⟨h, hc⟩ := I.tchain b e (fl.round.pick (s.A b)) (pick_lt _ _ (by omega) (by omega))
      obtain ⟨w, hw⟩ := ih (s.A h) hc.lt.2 fl.round h (by rw [← I.size]; exact hc.lt.1) rfl
      exact ⟨w, .step fl b h w (by rw [I.size]; exact hb) (by omega) hc hw⟩

theorem find_total {n : Nat} {s : Anchor} (I : Inv n s) (key : UInt64) : ∃ w, s.Finds key w ∧ w < n ∧ s.A w = 0 := by
  have hN1 := I.N1
  have hNn := I.Nn
  have hn := I.hn
  obtain ⟨w, hw⟩ := walk_total I (Flea.init key) ((Flea.init key).pick n) (pick_lt _ _ (by omega) (by omega))
  have := hw.working
  rw [I.size] at this
  exact ⟨w, (finds_iff _ _ _).2 (by rw [I.size]; exact hw), this⟩

theorem Walk.mono {n : Nat} {s : Anchor} (I : Inv n s) {b : Nat} (hb : s.A b = 0) {fl : Flea} {x w : Nat} (c : Walk s fl x w)
    (hw : w ≠ b) : Walk (s.remove b) fl x w := by
  have hA : (s.remove b).A = Function.update s.A b (s.N - 1) := by simp [remove, hb]
  have hS : (s.remove b).size = s.size := by simp [remove, hb]
  induction c with
  | stop fl x h1 h2 => exact .stop fl x (by rw [hS]; exact h1) (by rw [hA, Function.update_of_ne hw]; exact h2)
  | step fl x h w h1 h2 hc _ ih =>
    have e : x ≠ b := by rintro rfl; omega
    have eA : (s.remove b).A x = s.A x := by rw [hA, Function.update_of_ne e]
    have ha := I.a x (by omega)
    have hN1 := I.N1
    refine .step fl x h w (by rw [hS]; exact h1) (by rw [eA]; exact h2) ?_ (ih hw)
    rw [eA]
    exact hc.mono hb (by omega)

end Anchor

end Verif
