import Verif.Props.DbBatch

/-!
# C75: entries of sizes the database does not take
-/

namespace Verif

/-- The error that a call must answer for a topic and, if it has one, a payload; `none` when the sizes are fine. -/
def Spec.sizeError (topic : Bytes) (payload : Option Bytes) : Option DErr :=
  if topic = [] then some .topicEmpty
  else if 65536 < topic.length then some .topicLarge
  else if payload = some [] then some .valueEmpty
  else if 1073741824 < (payload.getD []).length then some .valueLarge
  else none

/-- The errors about sizes. -/
def Spec.aboutSize (e : DErr) : Prop := e = .topicEmpty ∨ e = .topicLarge ∨ e = .valueEmpty ∨ e = .valueLarge

theorem refused_eq (o : Obj) : o.refused = Spec.sizeError o.topic (some o.payload) := by
  unfold Obj.refused Spec.sizeError
  simp only [List.length_eq_zero_iff, Option.some.injEq, Option.getD_some, gt_iff_lt]
  rfl

theorem sizeError_about {t : Bytes} {p : Option Bytes} {e : DErr} (h : Spec.sizeError t p = some e) : Spec.aboutSize e := by
  unfold Spec.sizeError at h
  unfold Spec.aboutSize
  split_ifs at h <;> simp_all

theorem sizeError_topic {t : Bytes} {p : Option Bytes} (h1 : t ≠ []) (h2 : t.length ≤ 65536) (hp : p = none) : Spec.sizeError t p = none := by
  subst hp
  simp [Spec.sizeError, h1]; omega

theorem ofMem_size (out : MOut) : ¬ Spec.aboutSize (.ofMem out) := by
  unfold Spec.aboutSize DErr.ofMem
  cases out <;> simp

/-- C75 for Put: on an open database the call answers an error about sizes exactly when the topic or the payload has such a size, it is the
error for that size, and then neither the database nor the entry has changed. -/
theorem C75_put (v : DbEnv) (now : Int) (s : Db) (o : Obj) (hc : s.closed = false) :
    (∀ e, Spec.sizeError o.topic (some o.payload) = some e → s.putEntry v now o = (s, o, .err e)) ∧
    (∀ e, (s.putEntry v now o).2.2 = .err e → Spec.aboutSize e → Spec.sizeError o.topic (some o.payload) = some e) := by
  rw [← refused_eq]
  constructor
  · intro e he
    simp [Db.putEntry, hc, he]
  · intro e he ha
    simp only [Db.putEntry, hc, Bool.false_eq_true, if_false] at he
    split at he
    · next e' h' => cases he; exact h'
    · split at he
      · cases he
      · split at he
        · split at he <;> cases he
        · cases he; exact absurd ha (ofMem_size _)

/-- C75 for Get. -/
theorem C75_get (v : DbEnv) (g : GetEnv) (s : Db) (q : Query) (old : List UInt64) (hc : s.closed = false) :
    (∀ e, Spec.sizeError q.topic none = some e → s.get v g q old = (s, .err e)) ∧
    (∀ e, (s.get v g q old).2 = .err e → Spec.sizeError q.topic none = some e) := by
  by_cases h1 : q.topic = []
  · simp [Db.get, hc, h1, Spec.sizeError]
  · have h1' : q.topic.length ≠ 0 := by simpa using h1
    by_cases h2 : 65536 < q.topic.length
    · simp [Db.get, hc, h1, h2, Spec.sizeError]
    · refine ⟨fun e he => ?_, fun e he => ?_⟩
      · rw [sizeError_topic h1 (by omega) rfl] at he; cases he
      · simp only [Db.get, hc, Bool.false_eq_true, if_false, h1', gt_iff_lt, h2] at he
        split at he <;> cases he

/-- C75 for Delete, on a database that is not immutable, of an entry with an id. -/
theorem C75_delete (v : DbEnv) (s : Db) (o : Obj) (hm : s.immutable = false) (hi : (o.id.getD []) ≠ []) :
    (∀ e, Spec.sizeError o.topic none = some e → s.deleteEntry v o = (s, .err e)) ∧
    (∀ e, (s.deleteEntry v o).2 = .err e → Spec.aboutSize e → Spec.sizeError o.topic none = some e) := by
  have hi' : (o.id.getD []).length ≠ 0 := by simpa using hi
  by_cases h1 : o.topic = []
  · simp [Db.deleteEntry, hm, hi, h1, Spec.sizeError]
  · have h1' : o.topic.length ≠ 0 := by simpa using h1
    by_cases h2 : 65536 < o.topic.length
    · simp [Db.deleteEntry, hm, hi, h1, h2, Spec.sizeError]
    · refine ⟨fun e he => ?_, fun e he ha => ?_⟩
      · rw [sizeError_topic h1 (by omega) rfl] at he; cases he
      · simp only [Db.deleteEntry, hm, Bool.false_eq_true, if_false, hi', h1', gt_iff_lt, h2] at he
        exfalso
        split at he
        · cases he
        · unfold Db.delete at he
          split at he
          · cases he
          · split at he
            · cases he
            · dsimp only at he
              split at he
              · cases he; simp [Spec.aboutSize] at ha
              · cases he

/-- C75 for the Put of a batch. -/
theorem C75_batch_put (v : DbEnv) (now : Int) (s : Db) (b : DBatch) (o : Obj) :
    (∀ e, Spec.sizeError o.topic (some o.payload) = some e → b.putEntry v now s o = (s, b, o, .err e)) ∧
    (∀ e, (b.putEntry v now s o).2.2.2 = .err e → Spec.sizeError o.topic (some o.payload) = some e) := by
  rw [← refused_eq]
  constructor
  · intro e he
    simp [DBatch.putEntry, he]
  · intro e he
    simp only [DBatch.putEntry] at he
    split at he
    · next e' h' => cases he; exact h'
    · split at he <;> cases he

/-- C75 for the Delete of a batch, on a database that is not immutable, of an entry with an id. -/
theorem C75_batch_delete (v : DbEnv) (now : Int) (s : Db) (b : DBatch) (o : Obj) (hm : s.immutable = false) (hi : (o.id.getD []) ≠ []) :
    (∀ e, Spec.sizeError o.topic none = some e → b.deleteEntry v now s o = (s, b, o, .err e)) ∧
    (∀ e, (b.deleteEntry v now s o).2.2.2 = .err e → Spec.sizeError o.topic none = some e) := by
  have hi' : (o.id.getD []).length ≠ 0 := by simpa using hi
  by_cases h1 : o.topic = []
  · simp [DBatch.deleteEntry, hm, hi, h1, Spec.sizeError]
  · have h1' : o.topic.length ≠ 0 := by simpa using h1
    by_cases h2 : 65536 < o.topic.length
    · simp [DBatch.deleteEntry, hm, hi, h1, h2, Spec.sizeError]
    · refine ⟨fun e he => ?_, fun e he => ?_⟩
      · rw [sizeError_topic h1 (by omega) rfl] at he; cases he
      · simp only [DBatch.deleteEntry, hm, Bool.false_eq_true, if_false, hi', h1', gt_iff_lt, h2] at he
        split at he <;> cases he

/-- The sizes at the limits: a topic of 65536 bytes and a payload of 2^30 bytes are taken, one byte more is not. -/
example : Spec.sizeError (List.replicate 65536 97) (some (List.replicate 1073741824 0)) = none ∧
    Spec.sizeError (List.replicate 65537 97) (some [1]) = some .topicLarge ∧
    Spec.sizeError [97] (some (List.replicate 1073741825 0)) = some .valueLarge := by
  have ne : ∀ (n : Nat) (b : UInt8), n ≠ 0 → List.replicate n b ≠ [] := by
    intro n b h e
    have := congrArg List.length e
    rw [List.length_replicate] at this
    exact h this
  refine ⟨?_, ?_, ?_⟩ <;> unfold Spec.sizeError
  · rw [if_neg (ne _ _ (by decide)), if_neg (by rw [List.length_replicate]; decide), if_neg (by rw [Option.some.injEq]; exact ne _ _ (by decide)),
      if_neg (by rw [Option.getD_some, List.length_replicate]; decide)]
  · rw [if_neg (ne _ _ (by decide)), if_pos (by rw [List.length_replicate]; decide)]
  · rw [if_neg (by decide), if_neg (by decide), if_neg (by rw [Option.some.injEq]; exact ne _ _ (by decide)),
      if_pos (by rw [Option.getD_some, List.length_replicate]; decide)]

/-- Both refusals and a success happen on an open database. -/
example : (toyRun [.put toyNow { toyEntry with payload := [] }, .put toyNow { toyEntry with topic := [] }, toyPut [97] 1]).map (fun x => x.2.map Spec.outcome) =
    some [.out (.err .valueEmpty), .out (.err .topicEmpty), .out .ok] := by decide +kernel

end Verif
