import Verif.Model.Sample

/-! # C89: the statistics of durations -/

namespace Verif

/-- The durations recorded since the last reset, the newest first. -/
def Spec.recorded (evs : List SampleEv) : List Int :=
  evs.foldl (fun l e => match e with | .add t => t :: l | .reset => []) []

/-- In ascending order. -/
abbrev Spec.Ascending (ts : List Int) : Prop := ts.Pairwise (· ≤ ·)

/-- `top` are as long as any of the `k` longest of `ts`. -/
def Spec.Longest (ts top : List Int) : Prop := ∃ rest, (rest ++ top).Perm ts ∧ ∀ a ∈ rest, ∀ b ∈ top, a ≤ b

def Spec.Shortest (ts low : List Int) : Prop := ∃ rest, (low ++ rest).Perm ts ∧ ∀ a ∈ low, ∀ b ∈ rest, a ≤ b

/-- The average, rounded down. -/
def Spec.IsAverage (ts : List Int) (a : Int) : Prop := a * ts.length ≤ ts.sum ∧ ts.sum < (a + 1) * ts.length

theorem insertTime_perm (t : Int) (ts : List Int) : (insertTime t ts).Perm (t :: ts) := by
  induction ts with
  | nil => exact .refl _
  | cons a as ih =>
    rw [insertTime]
    split
    · exact .refl _
    · exact (ih.cons a).trans (.swap ..)

theorem insertTime_asc {t : Int} {ts : List Int} (h : Spec.Ascending ts) : Spec.Ascending (insertTime t ts) := by
  induction ts with
  | nil => exact List.pairwise_singleton ..
  | cons a as ih =>
    rw [insertTime]
    have h' := List.pairwise_cons.1 h
    split
    · next hta => exact List.pairwise_cons.2 ⟨fun b hb => by
        rcases List.mem_cons.1 hb with rfl | hb
        · exact hta
        · have := h'.1 b hb; omega, h⟩
    · refine List.pairwise_cons.2 ⟨fun b hb => ?_, ih h'.2⟩
      rcases List.mem_cons.1 ((insertTime_perm t as).mem_iff.1 hb) with rfl | hb
      · omega
      · exact h'.1 b hb

theorem sortTimes_perm (ts : List Int) : (sortTimes ts).Perm ts := by
  induction ts with
  | nil => exact .refl _
  | cons a as ih => exact (insertTime_perm a _).trans (ih.cons a)

theorem sortTimes_asc (ts : List Int) : Spec.Ascending (sortTimes ts) := by
  induction ts with
  | nil => exact .nil
  | cons a as ih => exact insertTime_asc ih

/-- The array of a sample and the durations recorded. -/
structure SampleHas (s : Sample) (l : List Int) : Prop where
  pos : 0 < s.size
  len : s.times.length = s.size
  count : s.count = l.length
  few : s.count ≤ s.size → s.times.take s.count = l.reverse
  many : s.size ≤ s.count → s.times.drop (s.count % s.size) ++ s.times.take (s.count % s.size) = (l.take s.size).reverse

theorem SampleHas.new {n : Nat} (h : 0 < n) : SampleHas (Sample.new n) [] :=
  ⟨h, by simp [Sample.new], rfl, fun _ => by simp [Sample.new], fun k => by simp only [Sample.new] at k; omega⟩

theorem SampleHas.reset {s : Sample} {l : List Int} (h : SampleHas s l) : SampleHas s.reset [] :=
  ⟨h.pos, h.len, rfl, fun _ => by simp [Sample.reset], fun k => by have := h.pos; simp only [Sample.reset] at k; omega⟩

theorem SampleHas.add {s : Sample} {l : List Int} (h : SampleHas s l) (t : Int) : ∃ s', s.addTime t = some s' ∧ SampleHas s' (t :: l) ∧ s'.size = s.size := by
  have hp := h.pos
  refine ⟨{ s with times := s.times.set (s.count % s.size) t, count := s.count + 1 }, by rw [Sample.addTime, if_neg (by omega)], ⟨hp, by simp [h.len], by simp [h.count], ?_, ?_⟩, rfl⟩
  · intro hk
    simp only at hk ⊢
    rw [Nat.mod_eq_of_lt (by omega), List.take_succ_eq_append_getElem (by simp [h.len]; omega)]
    rw [List.getElem_set_self, List.take_set_of_le (Nat.le_refl _), h.few (by omega)]
    simp
  · intro hk
    simp only at hk ⊢
    by_cases hs : s.count < s.size
    · have he : s.count + 1 = s.size := by omega
      rw [he, Nat.mod_self, Nat.mod_eq_of_lt hs]
      have h2 := h.few (by omega)
      have hl : l.length + 1 = s.size := by rw [← h.count]; exact he
      rw [List.take_of_length_le (l := t :: l) (by simp; omega)]
      simp only [List.drop_zero, List.take_zero, List.append_nil, List.reverse_cons]
      rw [← h2]
      apply List.ext_getElem
      · simp [h.len]; omega
      · intro i h1 h3
        simp only [List.length_set, h.len] at h1
        rw [List.getElem_set]
        by_cases hi : s.count = i
        · subst hi; rw [if_pos rfl, List.getElem_append_right (by rw [List.length_take]; omega)]; simp
        · rw [if_neg hi, List.getElem_append_left (by simp [h.len]; omega)]; simp
    · have hm := h.many (by omega)
      have hl : s.size ≤ l.length := by rw [← h.count]; omega
      have hlt := Nat.mod_lt s.count hp
      obtain ⟨n, hn⟩ : ∃ n, s.size = n + 1 := ⟨s.size - 1, by omega⟩
      have hr : ((t :: l).take s.size).reverse = (l.take s.size).reverse.tail ++ [t] := by
        rw [hn, List.take_succ_cons, List.reverse_cons]
        congr 1
        rw [List.tail_reverse, List.dropLast_eq_take, List.take_take, List.length_take, show min (min (n + 1) l.length - 1) (n + 1) = n by omega]
      rw [hr, ← hm]
      generalize hk' : s.count % s.size = k at *
      have hd : s.times.drop k = s.times[k]'(by rw [h.len]; exact hlt) :: s.times.drop (k + 1) := List.drop_eq_getElem_cons (by rw [h.len]; exact hlt)
      rw [hd, List.cons_append, List.tail_cons]
      have h1 : (s.times.set k t).drop (k + 1) = s.times.drop (k + 1) := List.drop_set_of_lt (Nat.lt_succ_self k)
      have h2 : (s.times.set k t).take (k + 1) = s.times.take k ++ [t] := by
        rw [List.take_succ_eq_append_getElem (by simp [h.len]; omega), List.getElem_set_self, List.take_set_of_le (Nat.le_refl _)]
      by_cases hk2 : k + 1 = s.size
      · have : (s.count + 1) % s.size = 0 := by rw [Nat.add_mod, hk', ← hk2]; cases k with
          | zero => simp
          | succ j => simp
        rw [this]
        have h4 : s.times.drop (k + 1) = [] := List.drop_eq_nil_of_le (by rw [h.len]; omega)
        have h5 : (s.times.set k t) = (s.times.set k t).take (k + 1) := (List.take_of_length_le (by simp [h.len]; omega)).symm
        rw [h4, List.drop_zero, List.take_zero, List.append_nil, h5, h2]; simp
      · have : (s.count + 1) % s.size = k + 1 := by
          rw [Nat.add_mod, hk', Nat.add_mod_mod]
          exact Nat.mod_eq_of_lt (by omega)
        rw [this, h1, h2, List.append_assoc]

theorem SampleHas.snapshot {s : Sample} {l : List Int} (h : SampleHas s l) : (s.snapshot).Perm (l.take s.size) := by
  refine (sortTimes_perm _).trans ?_
  by_cases hc : s.count ≤ s.size
  · rw [Nat.min_eq_left hc, h.few hc, List.take_of_length_le (by rw [← h.count]; exact hc)]
    exact List.reverse_perm l
  · have hm := h.many (by omega)
    rw [Nat.min_eq_right (by omega), List.take_of_length_le (Nat.le_of_eq h.len)]
    refine List.Perm.trans ?_ (List.reverse_perm (l.take s.size))
    rw [← hm]
    refine List.Perm.trans ?_ List.perm_append_comm
    rw [List.take_append_drop]

theorem SampleHas.run {s : Sample} {l : List Int} (h : SampleHas s l) (evs : List SampleEv) :
    ∃ s', s.run evs = some s' ∧ SampleHas s' (evs.foldl (fun l e => match e with | .add t => t :: l | .reset => []) l) ∧ s'.size = s.size := by
  induction evs generalizing s l with
  | nil => exact ⟨s, rfl, h, rfl⟩
  | cons e es ih =>
    cases e with
    | add t =>
      obtain ⟨s1, g1, g2, g3⟩ := h.add t
      obtain ⟨s', h1, h2, h3⟩ := ih g2
      exact ⟨s', by rw [Sample.run, Sample.step, g1]; exact h1, h2, h3.trans g3⟩
    | reset =>
      obtain ⟨s', h1, h2, h3⟩ := ih h.reset
      exact ⟨s', by rw [Sample.run, Sample.step]; exact h1, h2, h3⟩

/-- C89 (1, partial: of a snapshot; for the sample itself see `C89_live_violated`). It holds the last durations recorded since the last reset, as many as the sample has place for, in ascending order. -/
theorem C89_last_partial (n : Nat) (hn : 0 < n) (evs : List SampleEv) :
    ∃ s, (Sample.new n).run evs = some s ∧ s.snapshot.Perm ((Spec.recorded evs).take n) ∧ Spec.Ascending s.snapshot := by
  obtain ⟨s, h1, h2, h3⟩ := (SampleHas.new hn).run evs
  refine ⟨s, h1, ?_, sortTimes_asc _⟩
  have := h2.snapshot
  rw [h3] at this
  exact this

example : ∃ s, (Sample.new 3).run [.add 9, .reset, .add 5, .add 1, .add 7, .add 2] = some s ∧ s.snapshot = [1, 2, 7] := ⟨_, rfl, by decide +kernel⟩

/-- A sample with no place makes the first duration panic. -/
theorem C89_place (t : Int) : (Sample.new 0).addTime t = none := rfl

/-- C89 (2). The statistics of an empty snapshot panic, and only those. -/
theorem C89_empty (ts : List Int) : ((timesMin ts).isNone = ts.isEmpty) ∧ ((timesMax ts).isNone = ts.isEmpty) ∧ ((timesP50 ts).isNone = ts.isEmpty) ∧ ((timesAvg ts).isNone = ts.isEmpty) ∧
    ((timesRange ts).isNone = ts.isEmpty) ∧ ((timesLong5p ts).isNone = ts.isEmpty) ∧ ((timesShort5p ts).isNone = ts.isEmpty) ∧ ∀ p, 500 ≤ p → p ≤ 1000 → (timesP p ts).isNone = ts.isEmpty := by
  cases ts with
  | nil => exact ⟨rfl, rfl, rfl, rfl, rfl, rfl, rfl, fun p _ _ => by simp [timesP, timesRank]⟩
  | cons a as =>
    have hmax : (timesMax (a :: as)).isNone = false := by simp [timesMax, List.getLast?_cons]
    refine ⟨rfl, hmax, ?_, ?_, ?_, ?_, ?_, ?_⟩
    · have : (as.length + 1) / 2 < (a :: as).length := by simp; omega
      simp only [timesP50, List.length_cons, List.getElem?_eq_getElem this]; rfl
    · simp [timesAvg]
    · simp [timesRange, timesMax, timesMin, List.getLast?_cons]
    · simp only [timesLong5p]
      split
      · exact hmax
      · next h => simp only [timesAvg]; rw [if_neg (by omega)]; rfl
    · simp only [timesShort5p]
      split
      · rfl
      · next h => simp only [timesAvg]; rw [if_neg (by omega)]; rfl
    · intro p h1 h2
      have hr : timesRank (a :: as).length p ≠ 0 ∧ timesRank (a :: as).length p - 1 < (a :: as).length := by
        simp only [timesRank, List.length_cons]
        have e1 : 2 * (as.length + 1) * p ≤ 2 * (as.length + 1) * 1000 := Nat.mul_le_mul_left _ h2
        have e2 : 2 * (as.length + 1) * 500 ≤ 2 * (as.length + 1) * p := Nat.mul_le_mul_left _ h1
        omega
      simp only [timesP]
      rw [if_neg hr.1, List.getElem?_eq_getElem hr.2]; rfl

/-- With one duration recorded since the last reset, `Varz` does not panic. -/
theorem C89_reported (n : Nat) (hn : 0 < n) (evs : List SampleEv) (he : Spec.recorded evs ≠ []) : ∃ s, (Sample.new n).run evs = some s ∧ (timesMin s.snapshot).isSome ∧ (timesMax s.snapshot).isSome ∧
    (timesP50 s.snapshot).isSome ∧ (timesAvg s.snapshot).isSome ∧ (timesRange s.snapshot).isSome ∧ (timesLong5p s.snapshot).isSome ∧ (timesShort5p s.snapshot).isSome ∧
    ∀ p, 500 ≤ p → p ≤ 1000 → (timesP p s.snapshot).isSome := by
  obtain ⟨s, h1, h2, _⟩ := C89_last_partial n hn evs
  have h3 : s.snapshot.isEmpty = false := by
    cases h : s.snapshot with
    | cons a as => rfl
    | nil =>
      rw [h] at h2
      have := h2.length_eq
      have := List.length_pos_iff.2 he
      simp only [List.length_nil, List.length_take] at *
      omega
  have h4 := C89_empty s.snapshot
  rw [h3] at h4
  simp only [Option.isNone_eq_false_iff] at h4
  exact ⟨s, h1, h4⟩

example : Spec.recorded [.add 4, .reset, .add 7] = [7] := rfl

theorem asc_get {ts : List Int} (h : Spec.Ascending ts) {i j : Nat} {a b : Int} (hi : ts[i]? = some a) (hj : ts[j]? = some b) (hij : i ≤ j) : a ≤ b := by
  obtain ⟨h1, rfl⟩ := List.getElem?_eq_some_iff.1 hi
  obtain ⟨h2, rfl⟩ := List.getElem?_eq_some_iff.1 hj
  rcases Nat.lt_or_eq_of_le hij with h3 | rfl
  · exact List.pairwise_iff_getElem.1 h i j h1 h2 h3
  · exact Int.le_refl _

/-- C89 (3). The shortest, the percentiles and the longest of a snapshot are in order, and all are durations that were recorded. -/
theorem C89_order (ts : List Int) (h : Spec.Ascending ts) {mn p50 p75 p95 p99 p999 mx : Int} (h1 : timesMin ts = some mn) (h2 : timesP50 ts = some p50) (h3 : timesP 750 ts = some p75)
    (h4 : timesP 950 ts = some p95) (h5 : timesP 990 ts = some p99) (h6 : timesP 999 ts = some p999) (h7 : timesMax ts = some mx) :
    (mn ≤ p50 ∧ p50 ≤ p75 ∧ p75 ≤ p95 ∧ p95 ≤ p99 ∧ p99 ≤ p999 ∧ p999 ≤ mx) ∧ (∀ t ∈ [mn, p50, p75, p95, p99, p999, mx], t ∈ ts) ∧ ∀ t ∈ ts, mn ≤ t ∧ t ≤ mx := by
  simp only [timesP] at h3 h4 h5 h6
  split at h3
  · cases h3
  split at h4
  · cases h4
  split at h5
  · cases h5
  split at h6
  · cases h6
  simp only [timesMin, timesP50, timesMax, List.getLast?_eq_getElem?] at h1 h2 h7
  have hl : 0 < ts.length := (List.getElem?_eq_some_iff.1 h1).1
  refine ⟨⟨asc_get h h1 h2 (by omega), asc_get h h2 h3 (by simp only [timesRank]; omega), asc_get h h3 h4 (by simp only [timesRank]; omega), asc_get h h4 h5 (by simp only [timesRank]; omega),
    asc_get h h5 h6 (by simp only [timesRank]; omega), asc_get h h6 h7 (by simp only [timesRank]; omega)⟩, ?_, ?_⟩
  · intro t ht
    simp only [List.mem_cons, List.not_mem_nil, or_false] at ht
    rcases ht with rfl | rfl | rfl | rfl | rfl | rfl | rfl <;> exact List.mem_of_getElem? (by assumption)
  · intro t ht
    obtain ⟨i, hi, e⟩ := List.getElem_of_mem ht
    have := List.getElem?_eq_some_iff.2 ⟨hi, e⟩
    exact ⟨asc_get h h1 this (by omega), asc_get h this h7 (by omega)⟩

example : timesMin [1, 2, 7, 8] = some 1 ∧ timesP50 [1, 2, 7, 8] = some 7 ∧ timesP 750 [1, 2, 7, 8] = some 7 ∧ timesP 950 [1, 2, 7, 8] = some 8 ∧ timesMax [1, 2, 7, 8] = some 8 ∧ Spec.Ascending [1, 2, 7, 8] := by
  decide +kernel

theorem count_le_of_asc {ts : List Int} (h : Spec.Ascending ts) {i : Nat} {d : Int} (hi : ts[i]? = some d) : i + 1 ≤ ts.countP (· ≤ d) ∧ ts.countP (· < d) ≤ i ∧ ts.length ≤ i + ts.countP (d ≤ ·) := by
  have hlt := (List.getElem?_eq_some_iff.1 hi).1
  have e1 : (ts.take (i + 1)).countP (· ≤ d) = i + 1 := by
    rw [List.countP_eq_length.2, List.length_take_of_le (by omega)]
    intro a ha
    obtain ⟨j, hj, rfl⟩ := List.getElem_of_mem ha
    rw [List.length_take] at hj
    rw [List.getElem_take]
    exact decide_eq_true (asc_get h (List.getElem?_eq_getElem (by omega)) hi (by omega))
  have e2 : (ts.drop i).countP (d ≤ ·) = ts.length - i := by
    rw [List.countP_eq_length.2, List.length_drop]
    intro a ha
    obtain ⟨j, hj, rfl⟩ := List.getElem_of_mem ha
    rw [List.length_drop] at hj
    rw [List.getElem_drop]
    exact decide_eq_true (asc_get h hi (List.getElem?_eq_getElem (by omega)) (by omega))
  have e3 : (ts.drop i).countP (· < d) = 0 := by
    rw [List.countP_eq_zero]
    intro a ha
    obtain ⟨j, hj, rfl⟩ := List.getElem_of_mem ha
    rw [List.length_drop] at hj
    rw [List.getElem_drop]
    have := asc_get h hi (List.getElem?_eq_getElem (show i + j < ts.length by omega)) (by omega)
    simp only [decide_eq_true_eq]; omega
  have s1 := congrArg (List.countP (· ≤ d)) (List.take_append_drop (i + 1) ts)
  have s2 := congrArg (List.countP (d ≤ ·)) (List.take_append_drop i ts)
  have s3 := congrArg (List.countP (· < d)) (List.take_append_drop i ts)
  rw [List.countP_append] at s1 s2 s3
  have s4 := List.countP_le_length (p := (· < d)) (l := ts.take i)
  rw [List.length_take] at s4
  omega

/-- C89 (4). A percentile is the duration at the rounded rank: as many durations of the sample are at most as long, and fewer are shorter. -/
theorem C89_percentile (ts l : List Int) (hp : ts.Perm l) (h : Spec.Ascending ts) (p : Nat) (d : Int) (hd : timesP p ts = some d) :
    (2 * l.length * p + 1000) / 2000 ≤ l.countP (· ≤ d) ∧ l.countP (· < d) < (2 * l.length * p + 1000) / 2000 := by
  simp only [timesP] at hd
  split at hd
  · cases hd
  · have := count_le_of_asc h hd
    rw [hp.countP_eq, hp.countP_eq] at this
    rw [hp.length_eq] at *
    simp only [timesRank] at *
    omega

/-- C89 (5). The middle one is a median: at least half of the durations are at most as long, at least half at least as long. -/
theorem C89_median (ts l : List Int) (hp : ts.Perm l) (h : Spec.Ascending ts) (d : Int) (hd : timesP50 ts = some d) :
    l.length ≤ 2 * l.countP (· ≤ d) ∧ l.length ≤ 2 * l.countP (d ≤ ·) := by
  have := count_le_of_asc h hd
  rw [hp.countP_eq, hp.countP_eq, hp.countP_eq] at this
  rw [hp.length_eq] at *
  omega

example : timesP 750 [1, 2, 7, 7, 9] = some 7 ∧ timesP50 [1, 2, 7, 7, 9] = some 7 ∧ Spec.Ascending [1, 2, 7, 7, 9] ∧ [1, 2, 7, 7, 9].Perm [7, 2, 9, 1, 7] := by decide +kernel

/-- Durations of up to four years, as many as a sample has. -/
def Spec.Usual (ts : List Int) : Prop := ts.length ≤ 50 ∧ ∀ t ∈ ts, 0 ≤ t ∧ t < 2 ^ 57

theorem perm_sum {a b : List Int} (h : a.Perm b) : a.sum = b.sum := by
  induction h with
  | nil => rfl
  | cons x _ ih => simp [ih]
  | swap x y l => simp only [List.sum_cons]; omega
  | trans _ _ ih1 ih2 => exact ih1.trans ih2

theorem Spec.Usual.sum {ts : List Int} (h : Spec.Usual ts) : 0 ≤ ts.sum ∧ ts.sum ≤ ts.length * (2 ^ 57 - 1) := by
  replace h := h.2
  induction ts with
  | nil => simp
  | cons a as ih =>
    have := ih (fun t ht => h t (List.mem_cons_of_mem _ ht))
    have := h a (by simp)
    rw [List.sum_cons, List.length_cons]
    simp only [Int.natCast_add, Int.natCast_one]
    omega

theorem timesTotal_usual {ts : List Int} (h : Spec.Usual ts) : timesTotal ts = ts.sum := by
  have key : ∀ (as bs : List Int), Spec.Usual (as ++ bs) → bs.foldl (fun total t => int64 (total + t)) as.sum = (as ++ bs).sum := by
    intro as bs
    induction bs generalizing as with
    | nil => intro _; simp
    | cons b bs ih =>
      intro hu
      have hu' : Spec.Usual ((as ++ [b]) ++ bs) := by rw [List.append_assoc]; exact hu
      have hs : Spec.Usual (as ++ [b]) := ⟨by have := hu'.1; rw [List.length_append] at this; omega, fun t ht => hu'.2 t (List.mem_append_left _ ht)⟩
      have h1 := hs.sum
      have h2 := hs.1
      have e : int64 (as.sum + b) = (as ++ [b]).sum := by
        rw [List.sum_append, List.sum_singleton] at *
        rw [int64, Int.bmod_eq_of_le] <;> omega
      rw [List.foldl_cons, e, ih _ hu', List.append_assoc]; rfl
  exact key [] ts h

theorem timesAvg_usual {ts : List Int} (h : Spec.Usual ts) {a : Int} (ha : timesAvg ts = some a) : Spec.IsAverage ts a := by
  simp only [timesAvg] at ha
  split at ha
  · cases ha
  · next hl =>
    injection ha with ha
    rw [timesTotal_usual h] at ha
    have h1 := h.sum.1
    rw [Int.tdiv_eq_ediv_of_nonneg h1] at ha
    have hpos : (0 : Int) < ts.length := by omega
    subst ha
    exact ⟨Int.ediv_mul_le _ (by omega), by have := Int.lt_ediv_add_one_mul_self ts.sum hpos; exact this⟩

theorem longest_of_asc {ts : List Int} (h : Spec.Ascending ts) (k : Nat) : ∀ a ∈ ts.take k, ∀ b ∈ ts.drop k, a ≤ b := by
  have := h
  rw [← List.take_append_drop k ts] at this
  exact (List.pairwise_append.1 this).2.2

/-- C89 (6). The average and the averages of the longest and of the shortest durations are what they say. -/
theorem C89_average (ts l : List Int) (hp : ts.Perm l) (h : Spec.Ascending ts) (hu : Spec.Usual l) (avg long short : Int) (h1 : timesAvg ts = some avg) (h2 : timesLong5p ts = some long)
    (h3 : timesShort5p ts = some short) :
    Spec.IsAverage l avg ∧
    (∃ top, Spec.Longest l top ∧ top.length = max 1 (l.length - (2 * l.length * 950 + 1000) / 2000) ∧ Spec.IsAverage top long) ∧
    (∃ low, Spec.Shortest l low ∧ low.length = max 1 ((2 * l.length * 50 + 1000) / 2000) ∧ Spec.IsAverage low short) := by
  have hut : Spec.Usual ts := ⟨by rw [hp.length_eq]; exact hu.1, fun t ht => hu.2 t (hp.mem_iff.1 ht)⟩
  have hsub : ∀ {us : List Int}, (∀ u ∈ us, u ∈ ts) → us.length ≤ ts.length → Spec.Usual us := fun h1 h2 => ⟨by have := hut.1; omega, fun t ht => hut.2 t (h1 t ht)⟩
  have one : ∀ a : Int, Spec.IsAverage [a] a := fun a => ⟨by simp, by simp; omega⟩
  refine ⟨?_, ?_, ?_⟩
  · have := timesAvg_usual hut h1
    simp only [Spec.IsAverage, hp.length_eq] at this ⊢
    rw [show l.sum = ts.sum from (perm_sum hp).symm]
    exact this
  · rw [← hp.length_eq]
    simp only [timesLong5p] at h2
    split at h2
    · next hk =>
      simp only [timesMax] at h2
      obtain ⟨r, hr⟩ := List.getLast?_eq_some_iff.1 h2
      refine ⟨[long], ⟨r, by rw [← hr]; exact hp, ?_⟩, ?_, one _⟩
      · rw [hr] at h
        exact (List.pairwise_append.1 h).2.2
      · rw [List.length_drop] at hk
        simp only [timesRank] at hk
        simp only [List.length_singleton]; omega
    · next hk =>
      refine ⟨_, ⟨_, by rw [List.take_append_drop]; exact hp, longest_of_asc h _⟩, ?_, timesAvg_usual (hsub (fun u hu => List.mem_of_mem_drop hu) (by rw [List.length_drop]; omega)) h2⟩
      rw [List.length_drop] at hk ⊢
      simp only [timesRank] at hk ⊢
      omega
  · rw [← hp.length_eq]
    simp only [timesShort5p] at h3
    split at h3
    · next hk =>
      simp only [timesMin] at h3
      cases ts with
      | nil => cases h3
      | cons a as =>
        injection h3 with h3; subst h3
        refine ⟨[a], ⟨as, hp, fun x hx b hb => ?_⟩, ?_, one _⟩
        · rw [List.mem_singleton] at hx; subst hx
          exact (List.pairwise_cons.1 h).1 b hb
        · rw [List.length_take] at hk
          simp only [List.length_singleton]
          simp only [List.length_cons, timesRank] at hk ⊢
          omega
    · next hk =>
      refine ⟨_, ⟨_, by rw [List.take_append_drop]; exact hp, longest_of_asc h _⟩, ?_, timesAvg_usual (hsub (fun u hu => List.mem_of_mem_take hu) (by rw [List.length_take]; omega)) h3⟩
      rw [List.length_take] at hk ⊢
      simp only [timesRank] at hk ⊢
      omega

example : Spec.Usual [3, 8, 8, 10] ∧ timesAvg [3, 8, 8, 10] = some 7 ∧ timesLong5p [3, 8, 8, 10] = some 10 ∧ timesShort5p [3, 8, 8, 10] = some 3 := by
  refine ⟨⟨by decide, ?_⟩, by decide +kernel, by decide +kernel, by decide +kernel⟩
  decide

/-- Of fifty durations the two longest and the three shortest are averaged. -/
example : timesLong5p ((List.range 50).map fun i : Nat => (i : Int) * 10) = some 485 ∧ timesShort5p ((List.range 50).map fun i : Nat => (i : Int) * 10) = some 10 := by decide +kernel

/-- C89 (7). The range is the difference of the longest and the shortest. -/
theorem C89_range (ts : List Int) (hu : Spec.Usual ts) (mn mx : Int) (h1 : timesMin ts = some mn) (h2 : timesMax ts = some mx) : timesRange ts = some (mx - mn) := by
  have g1 := hu.2 mn (List.mem_of_getElem? h1)
  have g2 := hu.2 mx (List.mem_of_getLast? h2)
  simp only [timesRange, h1, h2, Option.bind_some, Option.map_some, int64]
  rw [Int.bmod_eq_of_le] <;> omega

example : timesRange [3, 8, 8, 10] = some 7 := by decide +kernel

/-- C89, violated: asked of the sample itself, the statistics are those of the array as it is, with the places not used yet and in no order. One positive duration is the shortest, and
the longest is zero. -/
theorem C89_live_violated (n : Nat) (hn : 1 < n) (t : Int) : ∃ s, (Sample.new n).run [.add t] = some s ∧ timesMin s.times = some t ∧ timesMax s.times = some 0 := by
  obtain ⟨m, rfl⟩ : ∃ m, n = m + 2 := ⟨n - 2, by omega⟩
  refine ⟨⟨m + 2, (List.replicate (m + 2) 0).set 0 t, 1⟩, by simp [Sample.run, Sample.step, Sample.addTime, Sample.new], rfl, ?_⟩
  have : (List.replicate (m + 2) (0 : Int)).set 0 t = (t :: List.replicate m 0) ++ [0] := by
    rw [List.replicate_succ, List.set_cons_zero, List.replicate_succ', List.cons_append]
  simp only [timesMax, this, List.getLast?_concat]

/-- C89, violated: and of a full one, two of the three durations are shorter than the middle one. -/
theorem C89_live_median_violated : ∃ s, (Sample.new 3).run [.add 5, .add 9, .add 6] = some s ∧ timesP50 s.times = some 9 ∧ ¬ 3 ≤ 2 * s.times.countP (9 ≤ ·) := ⟨_, rfl, by decide +kernel⟩

end Verif
