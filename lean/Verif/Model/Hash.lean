import Verif.Base.Bytes

/-!
# Topic hashing

hash/hash.go (and its copy server/internal/pkg/hash/hash.go).
-/

namespace Verif.Hash

open Verif

/-- hash/hash.go:24-25. -/
def init : UInt32 := 0xcc9e2d51
def prime : UInt32 := 0x1b873593

/-- One line of hash/hash.go:44-51: `h = (h ^ uint32(b)) * prime32`. -/
def step (h : UInt32) (b : UInt8) : UInt32 := (h ^^^ b.toUInt32) * prime

/-- hash/hash.go:43-53: the loop unrolled by eight, returning the hash and the unread tail. -/
def unrolled (h : UInt32) : Bytes → UInt32 × Bytes
  | b0 :: b1 :: b2 :: b3 :: b4 :: b5 :: b6 :: b7 :: rest =>
    let h := step h b0
    let h := step h b1
    let h := step h b2
    let h := step h b3
    let h := step h b4
    let h := step h b5
    let h := step h b6
    let h := step h b7
    unrolled h rest
  | rest => (h, rest)

/-- hash/hash.go:38-60 `New`. -/
def new (b : Bytes) : UInt32 :=
  let (h, rest) := unrolled init b
  rest.foldl step h

/-- Exchange of two elements, `result[i], result[j] = result[j], result[i]`. -/
def exchange {α : Type} (l : List α) (i j : Nat) : List α :=
  match l[i]?, l[j]? with
  | some x, some y => (l.set i y).set j x
  | _, _ => l

/-- hash/hash.go:71-76, the loop at index `i` going down, with the state `v` (salt position) and `p` (running sum). -/
def shuffleLoop {α : Type} (salt : Nat → Nat) : (i v p : Nat) → List α → List α
  | 0, _, _, l => l
  | i + 1, v, p, l =>
    let p := p + salt v
    let j := (salt v + v + p) % (i + 1)
    shuffleLoop salt i ((v + 1) % 4) p (exchange l (i + 1) j)

/-- The four salt bytes of the contract (hash/hash.go:67-68). -/
def saltByte (contract : UInt32) (v : Nat) : Nat := ((put32 contract)[v]?.getD 0).toNat

/-- hash/hash.go:63-78 `shuffleInPlace`, for any element type: it moves elements without looking at them. -/
def shuffle {α : Type} (contract : UInt32) (l : List α) : List α :=
  if contract = 0 then l else shuffleLoop (saltByte contract) (l.length - 1) 0 0 l

/-- hash/hash.go:32-35 `WithSalt`. -/
def withSalt (text : Bytes) (salt : UInt32) : UInt32 := new (shuffle salt text)

theorem unrolled_fold (h : UInt32) (b : Bytes) : (unrolled h b).2.foldl step (unrolled h b).1 = b.foldl step h := by
  fun_induction unrolled h b with
  | case1 h b0 b1 b2 b3 b4 b5 b6 b7 rest h0 h1 h2 h3 h4 h5 h6 h7 ih => simpa using ih
  | case2 => rfl

theorem length_exchange {α : Type} (l : List α) (i j : Nat) : (exchange l i j).length = l.length := by
  unfold exchange; split <;> simp

theorem map_exchange {α β : Type} (f : α → β) (l : List α) (i j : Nat) :
    (exchange l i j).map f = exchange (l.map f) i j := by
  unfold exchange
  simp only [List.getElem?_map]
  cases l[i]? <;> cases l[j]? <;> simp

theorem exchange_perm {α : Type} (l : List α) (i j : Nat) : (exchange l i j).Perm l := by
  unfold exchange
  split
  · next x y hi hj =>
    obtain ⟨hi', hx⟩ := List.getElem?_eq_some_iff.mp hi
    obtain ⟨hj', hy⟩ := List.getElem?_eq_some_iff.mp hj
    subst hx hy
    exact List.set_set_perm hi' hj'
  · exact List.Perm.refl _

theorem shuffleLoop_perm {α : Type} (salt : Nat → Nat) (i v p : Nat) (l : List α) :
    (shuffleLoop salt i v p l).Perm l := by
  induction i generalizing v p l with
  | zero => exact List.Perm.refl _
  | succ i ih => exact (ih _ _ _).trans (exchange_perm ..)

theorem map_shuffleLoop {α β : Type} (f : α → β) (salt : Nat → Nat) (i v p : Nat) (l : List α) :
    (shuffleLoop salt i v p l).map f = shuffleLoop salt i v p (l.map f) := by
  induction i generalizing v p l with
  | zero => rfl
  | succ i ih => simp only [shuffleLoop]; rw [ih, map_exchange]

theorem map_shuffle {α β : Type} (f : α → β) (c : UInt32) (l : List α) :
    (shuffle c l).map f = shuffle c (l.map f) := by
  unfold shuffle; split
  · rfl
  · rw [map_shuffleLoop, List.length_map]

theorem shuffle_perm {α : Type} (c : UInt32) (l : List α) : (shuffle c l).Perm l := by
  unfold shuffle; split
  · exact List.Perm.refl _
  · exact shuffleLoop_perm ..

end Verif.Hash
