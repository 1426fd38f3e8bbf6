import Verif.Model.Expiry
import Mathlib.Data.List.Sort
import Mathlib.Data.List.Perm.Basic
import Mathlib.Tactic.ByContra

/-! # The expiry windows: nothing is lost and nothing is taken twice -/

namespace Verif

namespace ExpBucket

/-- What waits. -/
def waiting (m : AMap (Nat × Int) (List WinEntry)) : List WinEntry := m.flatMap (·.2)

/-- Every entry is in its window. -/
structure WF (m : AMap (Nat × Int) (List WinEntry)) : Prop where
  nodup : AMap.Nodup m
  key : ∀ k es, (k, es) ∈ m → ∀ e ∈ es, keyOf e = k

theorem WF.nil : WF [] := ⟨AMap.Nodup.nil, by simp⟩

theorem del_of_not_mem {m : AMap (Nat × Int) (List WinEntry)} {k : Nat × Int} (h : m.get k = none) : m.del k = m := by
  rw [AMap.del, List.filter_eq_self]
  intro p hp
  simp only [ne_eq, decide_not, Bool.not_eq_eq_eq_not, Bool.not_true, decide_eq_false_iff_not]
  rintro rfl
  have : p.1 ∈ AMap.keys m := List.mem_map.mpr ⟨p, hp, rfl⟩
  rw [AMap.mem_keys, h] at this
  simp at this

theorem waiting_del {m : AMap (Nat × Int) (List WinEntry)} (hn : AMap.Nodup m) (k : Nat × Int) :
    (waiting m).Perm ((m.get k).getD [] ++ waiting (m.del k)) := by
  induction m with
  | nil => simp [waiting, AMap.get, AMap.del]
  | cons p m ih =>
    have hn' : p.1 ∉ AMap.keys m ∧ AMap.Nodup m := by simpa [AMap.Nodup, AMap.keys] using hn
    by_cases hp : p.1 = k
    · have h0 : AMap.get m k = none := by
        have := (AMap.mem_keys m k).not.mp (hp ▸ hn'.1)
        simpa using this
      have hd : AMap.del (p :: m) k = m := by
        rw [AMap.del, List.filter_cons, if_neg (by simpa using hp)]
        exact del_of_not_mem h0
      rw [hd]
      simp [waiting, AMap.get, hp]
    · have hd : AMap.del (p :: m) k = p :: AMap.del m k := by
        rw [AMap.del, List.filter_cons, if_pos (by simpa using hp)]
        rfl
      have hg : AMap.get (p :: m) k = AMap.get m k := by simp [AMap.get, hp]
      rw [hd, hg]
      simp only [waiting, List.flatMap_cons] at ih ⊢
      exact ((List.perm_append_left_iff _).mpr (ih hn'.2)).trans (List.perm_append_comm_assoc ..)

theorem WF.del {m : AMap (Nat × Int) (List WinEntry)} (w : WF m) (k : Nat × Int) : WF (m.del k) :=
  ⟨w.nodup.del k, fun k' es h => w.key k' es (List.mem_of_mem_filter h)⟩

theorem WF.get {m : AMap (Nat × Int) (List WinEntry)} (w : WF m) {k : Nat × Int} : ∀ e ∈ (m.get k).getD [], keyOf e = k := by
  intro e he
  cases hg : m.get k with
  | none => rw [hg] at he; simp at he
  | some es =>
    rw [hg] at he
    exact w.key k es (AMap.mem_of_get m hg) e he

theorem WF.file {m : AMap (Nat × Int) (List WinEntry)} (w : WF m) (e : WinEntry) :
    WF (m.set (keyOf e) ((m.get (keyOf e)).getD [] ++ [e])) := by
  refine ⟨w.nodup.set _ _, fun k es h x hx => ?_⟩
  rw [AMap.set, List.mem_cons] at h
  rcases h with h | h
  · simp only [Prod.mk.injEq] at h
    obtain ⟨rfl, rfl⟩ := h
    rcases List.mem_append.mp hx with hx | hx
    · exact w.get x hx
    · rw [List.mem_singleton.mp hx]
  · exact (w.del _).key k es h x hx

theorem waiting_file {m : AMap (Nat × Int) (List WinEntry)} (w : WF m) (e : WinEntry) :
    (waiting (m.set (keyOf e) ((m.get (keyOf e)).getD [] ++ [e]))).Perm (e :: waiting m) := by
  have h := waiting_del w.nodup (keyOf e)
  have : waiting (m.set (keyOf e) ((m.get (keyOf e)).getD [] ++ [e])) = (m.get (keyOf e)).getD [] ++ [e] ++ waiting (m.del (keyOf e)) := by
    simp [waiting, AMap.set]
  rw [this, List.append_assoc]
  refine (List.perm_middle).trans ?_
  exact List.Perm.cons _ h.symm

theorem lt_expTime (t : UInt32) : (t.toNat : Int) < expTime t := by
  simp only [expTime]
  omega

theorem expTime_le (t : UInt32) : expTime t ≤ t.toNat + 60 := by
  simp only [expTime]
  omega

/-- The entries of a window that is over are all expired. -/
theorem WF.over {m : AMap (Nat × Int) (List WinEntry)} (w : WF m) {now : UInt32} {i : Nat} {t : Int} (ht : ¬ t > now.toNat) :
    ((m.get (i, t)).getD []).filter (fun e => e.expiresAt < now) = (m.get (i, t)).getD [] := by
  rw [List.filter_eq_self]
  intro e he
  have h := w.get e he
  simp only [keyOf, Prod.mk.injEq] at h
  have := lt_expTime e.expiresAt
  simp only [decide_eq_true_eq, UInt32.lt_iff_toNat_lt]
  omega

/-- One shard: what is taken and what stays is what waited; nothing is taken early; windows left over are not due, or there was
too much. -/
theorem takeWindows_spec (now : UInt32) (max : Int) (i : Nat) : ∀ (ts : List Int) (m : AMap (Nat × Int) (List WinEntry)) (acc : List WinEntry),
    WF m → ts.Pairwise (· ≤ ·) → ∀ m' acc', takeWindows now max i ts m acc = (m', acc') →
    WF m' ∧ (acc ++ waiting m).Perm (acc' ++ waiting m') ∧ (∃ d, acc' = acc ++ d ∧ ∀ e ∈ d, e.expiresAt < now ∧ expShard e.expiresAt = i) ∧
    (∀ e ∈ waiting m', e ∈ waiting m) ∧
    ((acc'.length : Int) ≤ max → ∀ t ∈ ts, t ≤ now.toNat → m'.get (i, t) = none) := by
  intro ts
  induction ts with
  | nil =>
    intro m acc w _ m' acc' h
    simp only [takeWindows, Prod.mk.injEq] at h
    obtain ⟨rfl, rfl⟩ := h
    exact ⟨w, .refl _, ⟨[], by simp, by simp⟩, fun _ h => h, fun _ t ht => by simp at ht⟩
  | cons t ts ih =>
    intro m acc w hs m' acc' h
    rw [List.pairwise_cons] at hs
    rw [takeWindows] at h
    split at h
    · next hc =>
      simp only [Prod.mk.injEq] at h
      obtain ⟨rfl, rfl⟩ := h
      refine ⟨w, .refl _, ⟨[], by simp, by simp⟩, fun _ h => h, fun hl x hx hle => ?_⟩
      rcases hc with hc | hc
      · rcases List.mem_cons.mp hx with rfl | hx
        · omega
        · have := hs.1 x hx; omega
      · omega
    · next hc =>
      have hc' : ¬ t > now.toNat := fun hh => hc (.inl hh)
      dsimp only at h
      rw [w.over hc', if_pos rfl] at h
      obtain ⟨h1, h2, ⟨d, h3, h4⟩, h5, h6⟩ := ih _ _ (w.del _) hs.2 m' acc' h
      have hp := waiting_del w.nodup (i, t)
      refine ⟨h1, ?_, ⟨(m.get (i, t)).getD [] ++ d, by rw [h3, List.append_assoc], ?_⟩, ?_, ?_⟩
      · refine List.Perm.trans ?_ h2
        rw [List.append_assoc]
        exact (List.perm_append_left_iff _).mpr hp
      · intro e he
        rcases List.mem_append.mp he with he | he
        · have hk := w.get e he
          have hf := w.over hc' (i := i)
          rw [← hf, List.mem_filter] at he
          simp only [keyOf, Prod.mk.injEq] at hk
          exact ⟨by simpa using he.2, hk.1⟩
        · exact h4 e he
      · intro e he
        exact hp.symm.subset (List.mem_append_right _ (h5 e he))
      · intro hl x hx hle
        rcases List.mem_cons.mp hx with rfl | hx
        · by_contra hne
          cases hg : m'.get (i, x) with
          | none => exact hne hg
          | some es =>
            -- the window was deleted and nothing is filed meanwhile
            exact absurd hg (by
              have key : ∀ (ts : List Int) (m : AMap (Nat × Int) (List WinEntry)) (acc : List WinEntry), m.get (i, x) = none →
                  (takeWindows now max i ts m acc).1.get (i, x) = none := by
                intro ts
                induction ts with
                | nil => intro m acc h; exact h
                | cons u us ih2 =>
                  intro m acc h
                  rw [takeWindows]
                  split
                  · exact h
                  · apply ih2
                    split
                    · rw [AMap.get_del]; split <;> simp [h]
                    · exact h
              have := key ts (m.del (i, x)) (acc ++ (m.get (i, x)).getD []) (AMap.get_del_self _ _)
              rw [h] at this
              rw [this]; simp)
        · exact h6 hl x hx hle

theorem mem_times {m : AMap (Nat × Int) (List WinEntry)} {i : Nat} {t : Int} : t ∈ times m i ↔ (m.get (i, t)).isSome := by
  rw [times, List.mem_insertionSort, ← AMap.mem_keys, List.mem_map]
  constructor
  · rintro ⟨⟨a, b⟩, h1, rfl⟩
    simp only [List.mem_filter, decide_eq_true_eq] at h1
    rw [← h1.2]; exact h1.1
  · intro h
    exact ⟨(i, t), by simp [h], rfl⟩

theorem times_sorted (m : AMap (Nat × Int) (List WinEntry)) (i : Nat) : (times m i).Pairwise (· ≤ ·) := by
  exact List.pairwise_insertionSort (r := fun a b : Int => a ≤ b) _

/-- A run of the expirer. -/
theorem take_spec {b b' : ExpBucket} {now : UInt32} {max : Int} {out : List WinEntry} (w : WF b.windows) (h : b.take now max = (b', out)) :
    WF b'.windows ∧ (waiting b.windows).Perm (out ++ waiting b'.windows) ∧ b'.on = b.on ∧ (b'.earliest = b.earliest ∨ b'.earliest = 0) ∧
    (∀ e ∈ out, e.expiresAt < now ∧ expShard e.expiresAt = 0) ∧
    (b.on = true → b.earliest ≤ now.toNat → (out.length : Int) ≤ max → ∀ e ∈ waiting b'.windows, expShard e.expiresAt = 0 → (now.toNat : Int) < expTime e.expiresAt) := by
  rw [take] at h
  split at h
  · split at h
    · next hg =>
      simp only [Prod.mk.injEq] at h
      obtain ⟨rfl, rfl⟩ := h
      exact ⟨w, .refl _, rfl, .inl rfl, by simp, fun _ hle => by omega⟩
    · next hg =>
      have h1 : List.range maxExpDur = [0] := rfl
      rw [h1] at h
      simp only [takeShards, Prod.mk.injEq] at h
      obtain ⟨rfl, rfl⟩ := h
      obtain ⟨s1, s2, ⟨d, s3, s4⟩, s5, s6⟩ := takeWindows_spec now max 0 _ b.windows [] w (times_sorted _ _) _ _ rfl
      refine ⟨s1, by simpa using s2, rfl, .inr rfl, ?_, ?_⟩
      · intro e he
        rw [s3] at he
        simp only [List.nil_append] at he
        exact s4 e he
      · intro _ _ hl e he hsh
        by_contra hlt
        have hk : (0, expTime e.expiresAt) = keyOf e := by rw [keyOf, hsh]
        have hmem : ∀ m, WF m → e ∈ waiting m → (m.get (0, expTime e.expiresAt)).isSome := by
          intro m wm hm
          simp only [waiting, List.mem_flatMap] at hm
          obtain ⟨⟨k, es⟩, hp, hes⟩ := hm
          have hke := wm.key k es hp e hes
          rw [hk, hke, wm.nodup.get_of_mem hp]
          rfl
        have h0 := hmem b.windows w (s5 e he)
        have h2 := hmem _ s1 he
        have := s6 hl (expTime e.expiresAt) (mem_times.mpr h0) (by omega)
        rw [this] at h2
        simp at h2
  · next ho =>
    simp only [Prod.mk.injEq] at h
    obtain ⟨rfl, rfl⟩ := h
    exact ⟨w, .refl _, rfl, .inl rfl, by simp, fun h => absurd h ho⟩

end ExpBucket

end Verif
