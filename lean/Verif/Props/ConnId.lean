import Verif.Model.ConnId
import Verif.Props.Whole
import Mathlib.Data.List.Nodup
import Mathlib.Tactic.Ring
import Mathlib.Tactic.NormNum.GCD
import Mathlib.RingTheory.Coprime.Lemmas

/-!
# C100: connections of different processes have different ids
-/

namespace Verif

theorem lids_eq (next : UInt32) (n : Nat) : lids next n = (List.range n).map fun i => next + 1 + UInt32.ofNat i := by
  induction n generalizing next with
  | zero => rfl
  | succ n ih =>
    rw [lids, List.range_succ_eq_map]
    simp only [newLid, List.map_cons, List.map_map, ih, Function.comp_def]
    congr 1
    · simp
    · refine List.map_congr_left fun i _ => ?_
      apply UInt32.toNat_inj.1
      simp only [UInt32.toNat_add, UInt32.toNat_ofNat']
      have : (1 : UInt32).toNat = 1 := rfl
      omega

theorem mem_lids {next : UInt32} {n : Nat} {a : UInt32} : a ∈ lids next n ↔ ∃ i < n, a.toNat = (next.toNat + 1 + i) % 2 ^ 32 := by
  rw [lids_eq]
  simp only [List.mem_map, List.mem_range]
  constructor
  · rintro ⟨i, hi, rfl⟩
    refine ⟨i, hi, ?_⟩
    simp only [UInt32.toNat_add, UInt32.toNat_ofNat']
    have : (1 : UInt32).toNat = 1 := rfl
    omega
  · rintro ⟨i, hi, h⟩
    refine ⟨i, hi, UInt32.toNat_inj.1 ?_⟩
    simp only [UInt32.toNat_add, UInt32.toNat_ofNat']
    have : (1 : UInt32).toNat = 1 := rfl
    omega

/-- C100. The connections of one process have different ids as long as there are at most 2^32 of them, and no longer. -/
theorem C100_process_iff (next : UInt32) (n : Nat) : (lids next n).Nodup ↔ n ≤ 2 ^ 32 := by
  rw [lids_eq]
  constructor
  · intro h
    by_contra hn
    have h := List.inj_on_of_nodup_map h (x := 0) (List.mem_range.2 (by omega)) (y := 2 ^ 32) (List.mem_range.2 (by omega)) (by
      apply UInt32.toNat_inj.1
      simp only [UInt32.toNat_add, UInt32.toNat_ofNat']
      omega)
    omega
  · intro hn
    refine List.Nodup.map_on (fun a ha b hb h => ?_) List.nodup_range
    have h := congrArg UInt32.toNat h
    have ha := List.mem_range.1 ha
    have hb := List.mem_range.1 hb
    simp only [UInt32.toNat_add, UInt32.toNat_ofNat'] at h
    omega

/-- How far apart the ids of two processes start, when the second was started `ms` milliseconds after the first. -/
def Spec.gap (ms : Int) : Nat := ((ms * 1000000) % 2 ^ 32).toNat

/-- Times for which a Duration holds how long it is until 2070. -/
def Spec.Near (ns : Int) : Prop := -2 ^ 63 ≤ (year2070 - roundMs ns) * 1000000 ∧ (year2070 - roundMs ns) * 1000000 < 2 ^ 63

theorem firstNext_near {ns : Int} (h : Spec.Near ns) : (firstNext ns).toNat = (((year2070 - roundMs ns) * 1000000) % 2 ^ 32).toNat := by
  obtain ⟨h1, h2⟩ := h
  have e : clampDur ((year2070 - roundMs ns) * 1000000) = (year2070 - roundMs ns) * 1000000 := by
    simp only [clampDur]; omega
  rw [firstNext, toU32, UInt32.toNat_ofNat', e]
  omega

theorem gap_of_rests (p q : Int) : ((p - q) % 2 ^ 32).toNat = ((p % 2 ^ 32).toNat + 2 ^ 32 - (q % 2 ^ 32).toNat) % 2 ^ 32 := by omega

/-- C100. No connection among the first `m` of a process has the id of one among the first `n` of another, exactly if the other started far enough from the first for its
`n` connections, and the first from the other for its `m`. -/
theorem C100_processes_iff (a b : Int) (ha : Spec.Near a) (hb : Spec.Near b) (m n : Nat) (hm : 0 < m) (hn : 0 < n) :
    (∀ x ∈ lids (firstNext a) m, x ∉ lids (firstNext b) n) ↔ n ≤ Spec.gap (roundMs b - roundMs a) ∧ m ≤ 2 ^ 32 - Spec.gap (roundMs b - roundMs a) := by
  have ea := firstNext_near ha
  have eb := firstNext_near hb
  have la := (firstNext a).toNat_lt
  have lb := (firstNext b).toNat_lt
  generalize hx : (firstNext a).toNat = x at *
  generalize hy : (firstNext b).toNat = y at *
  have hd : Spec.gap (roundMs b - roundMs a) = (x + 2 ^ 32 - y) % 2 ^ 32 := by
    rw [Spec.gap, ea, eb, ← gap_of_rests]
    congr 2
    ring
  rw [hd]
  simp only [mem_lids, not_exists, not_and, hx, hy]
  constructor
  · intro h
    constructor
    · by_contra hc
      have := h (UInt32.ofNat ((x + 1) % 2 ^ 32)) ⟨0, hm, by rw [UInt32.toNat_ofNat']; omega⟩ ((x + 2 ^ 32 - y) % 2 ^ 32) (by omega)
      rw [UInt32.toNat_ofNat'] at this
      omega
    · by_contra hc
      have := h (UInt32.ofNat ((y + 1) % 2 ^ 32)) ⟨2 ^ 32 - (x + 2 ^ 32 - y) % 2 ^ 32, by omega, by rw [UInt32.toNat_ofNat']; omega⟩ 0 hn
      rw [UInt32.toNat_ofNat'] at this
      omega
  · rintro ⟨h1, h2⟩ z ⟨i, hi, ei⟩ j hj ej
    omega

/-- C100. Two processes start with the same id exactly if the times of their starts, in milliseconds, are a multiple of 2^26 (18 hours and 38 minutes) apart. -/
theorem C100_start_iff (a b : Int) (ha : Spec.Near a) (hb : Spec.Near b) : firstNext a = firstNext b ↔ (2 ^ 26 : Int) ∣ roundMs b - roundMs a := by
  have e : ∀ p q : Int, (p % 2 ^ 32).toNat = (q % 2 ^ 32).toNat ↔ (2 ^ 32 : Int) ∣ p - q := by intro p q; omega
  rw [← UInt32.toNat_inj, firstNext_near ha, firstNext_near hb, e]
  have e2 : (year2070 - roundMs a) * 1000000 - (year2070 - roundMs b) * 1000000 = 2 ^ 6 * (15625 * (roundMs b - roundMs a)) := by ring
  have e3 : (2 ^ 32 : Int) = 2 ^ 6 * 2 ^ 26 := by norm_num
  rw [e2, e3, mul_dvd_mul_iff_left (by norm_num)]
  have hc : IsCoprime (2 ^ 26 : Int) 15625 := Int.isCoprime_iff_gcd_eq_one.2 (by decide)
  exact ⟨hc.dvd_of_dvd_mul_left, fun h => h.mul_left _⟩

/-- The time of the toy environments is near enough, and 2^26 milliseconds before. -/
example : Spec.Near toyNow ∧ Spec.Near (toyNow - 2 ^ 26 * 1000000) ∧ Spec.Near (toyNow + 4295 * 1000000) := by
  refine ⟨⟨?_, ?_⟩, ⟨?_, ?_⟩, ?_, ?_⟩ <;> decide +kernel

/-- A thousand connections each, one second apart. -/
example : ∀ x ∈ lids (firstNext toyNow) 1000, x ∉ lids (firstNext (toyNow + 1000000000)) 1000 :=
  (C100_processes_iff _ _ ⟨by decide +kernel, by decide +kernel⟩ ⟨by decide +kernel, by decide +kernel⟩ 1000 1000 (by decide) (by decide)).2 (by decide +kernel)

/-- C100 is false: a process started 4.295 seconds after another gives its 32705th connection the id of the first connection of the other. -/
theorem C100_soon_violated : ∃ x, x ∈ lids (firstNext toyNow) 1 ∧ (lids (firstNext (toyNow + 4295 * 1000000)) 32705)[32704]? = some x := by
  refine ⟨firstNext toyNow + 1, List.mem_singleton.2 rfl, ?_⟩
  rw [lids_eq, List.getElem?_map, List.getElem?_range (by decide)]
  decide +kernel

/-- C100 is false: a process started 18 hours and 38 minutes after another, 2^26 milliseconds, gives its connections the same ids in the same order. -/
theorem C100_later_violated (n : Nat) : lids (firstNext toyNow) n = lids (firstNext (toyNow - 2 ^ 26 * 1000000)) n := by
  congr 1

/-! ## What is left to a later process -/

/-- The first connection of a process started 2^26 milliseconds before `toyNow`: a client of contract 7, which reads `b.c`. The
database syncs. -/
def toyOldProcess : List WholeEv :=
  (toyConnect (firstNext (toyNow - 2 ^ 26 * 1000000) + 1) 101 7 true ++
    [SrvEv.packet (firstNext (toyNow - 2 ^ 26 * 1000000) + 1) (.subscribe 3 [⟨[107, chSlash, 98, 46, 99], 0, 0⟩])]).map .srv ++ [.write 5001 5000, .rotate 6000, .sync .toy]

/-- The connections of a process started at `toyNow`: the first is a client of contract 8, the second one of contract 7, which publishes to `b.c`. -/
def toyNewProcess : List WholeEv :=
  (toyConnect (firstNext toyNow + 1) 102 8 true ++ toyConnect (firstNext toyNow + 2) 100 7 true ++ [SrvEv.packet (firstNext toyNow + 2) (.publish toyNews)]).map .srv

def toyBothProcesses : Option (Db × Whole × Db × Whole) :=
  (toyWholeRun toyOldProcess).bind fun x => (openDb .toy {} .toy .toy 9000 x.2.db.disk).db?.bind fun s => (Whole.run toyWhole { db := s } toyNewProcess).toOption.map fun w => (x.1, x.2, s, w)

/-- C100 is false, and with it C85 across a restart: a process ends without a Close while a client reads `b.c`. A later process on the same database gives the id of that client's
connection to a client of contract 8. It sends that client, which has asked for nothing, the message that a client of contract 7 publishes to `b.c`. -/
theorem C100_restart_violated : ∃ s0 w s1 w', openDb .toy {} .toy .toy 5000 {} = .ok s0 ∧ Whole.run toyWhole { db := s0 } toyOldProcess = .ok w ∧
    openDb .toy {} .toy .toy 9000 w.db.disk = .ok s1 ∧ Whole.run toyWhole { db := s1 } toyNewProcess = .ok w' ∧
    w'.srv.out.filter (·.1 == firstNext toyNow + 1) = [(firstNext toyNow + 1, .connack true), (firstNext toyNow + 1, .pub ⟨5, 0, [⟨[98, 46, 99], [42, 42, 42, 42]⟩]⟩)] := by
  have h : toyBothProcesses.any (fun x => decide (x.2.2.2.srv.out.filter (·.1 == firstNext toyNow + 1) =
      [(firstNext toyNow + 1, .connack true), (firstNext toyNow + 1, .pub ⟨5, 0, [⟨[98, 46, 99], [42, 42, 42, 42]⟩]⟩)])) = true := by decide +kernel
  obtain ⟨⟨s0, w, s1, w'⟩, h1, h2⟩ := (Option.any_eq_true _ _).1 h
  simp only [toyBothProcesses, toyWholeRun, Option.bind_eq_some_iff, Option.map_eq_some_iff] at h1
  obtain ⟨⟨t0, v⟩, ⟨t, g1, v1, g2, g3⟩, t1, g4, v2, g5, g6⟩ := h1
  injection g3 with g3 g7
  subst g3 g7
  injection g6 with g6 g8
  injection g8 with g8 g9
  injection g9 with g9 g10
  subst g6 g8 g9 g10
  exact ⟨_, _, _, _, OpenOut.db?_some g1, whole_of_toOption g2, OpenOut.db?_some g4, whole_of_toOption g5, of_decide_eq_true h2⟩

end Verif
