import Verif.Model.Reuse
import Verif.Props.Db

/-!
# C102: a query object that is used again
-/

namespace Verif

/-- What the Gets of a program should return: each is given a new query with the fields of `q` and the topic set last. -/
def Spec.afresh (v : DbEnv) : Db → Query → List QueryOp → List DGet
  | _, _, [] => []
  | s, q, .put now o :: ops => Spec.afresh v (s.putEntry v now o).1 q ops
  | s, q, .get g :: ops => let r := s.get v g q []; r.2 :: Spec.afresh v r.1 q ops
  | s, q, .topic t :: ops => Spec.afresh v s { q with topic := t } ops

/-- The lookups of a program find nothing: no candidate is left in the object. -/
def Spec.FindsNothing (v : DbEnv) : Db → UsedQuery → List QueryOp → Prop
  | _, _, [] => True
  | s, u, .put now o :: ops => Spec.FindsNothing v (s.putEntry v now o).1 u ops
  | s, u, .get g :: ops => let r := s.getWith v g u; (ops ≠ [] → r.2.1.cands = []) ∧ Spec.FindsNothing v r.1 r.2.1 ops
  | s, u, .topic t :: ops => Spec.FindsNothing v s (u.withTopic t) ops

/-- Two queries that ask the same at any time. -/
def Alike (v : DbEnv) (q q' : Query) : Prop := q.topic = q'.topic ∧ ∀ now, q.ask v.dur now v.q = q'.ask v.dur now v.q

theorem topicLast_number {dur : Bytes → Int} {now now' : Int} {opts : List (Bytes × Bytes)} :
    (topicLast dur now opts).map (·.2) = (topicLast dur now' opts).map (·.2) := by
  simp only [topicLast, Option.map_map]
  congr 1
  funext x
  simp only [Function.comp]
  split <;> rfl

theorem resolveLimit_count {o : QOpts} {l : Int} {a b : Option (Int × Int)} (h : a.map (·.2) = b.map (·.2)) : resolveLimit o l a = resolveLimit o l b := by
  cases a <;> cases b <;> simp at h
  · rfl
  · simp only [resolveLimit, h]

theorem resolveLimit_again {o : QOpts} (ho : 0 < o.default ∧ o.default ≤ o.max) (l : Int) (a : Option (Int × Int)) (hn : ∀ x, a = some x → 0 ≤ x.2) :
    resolveLimit o (resolveLimit o l a) a = resolveLimit o l a := by
  cases a with
  | none => simp only [resolveLimit]; split <;> (try split) <;> omega
  | some x =>
    have := hn x rfl
    simp only [resolveLimit]
    split_ifs <;> omega

theorem topicLast_nonneg {dur : Bytes → Int} {now : Int} {opts : List (Bytes × Bytes)} {x : Int × Int} (h : topicLast dur now opts = some x) : 0 ≤ x.2 := by
  simp only [topicLast, Option.map_eq_some_iff] at h
  obtain ⟨y, _, h⟩ := h
  split at h <;> (subst h; simp <;> omega)

theorem masterContract_ne : masterContract ≠ 0 := by decide

theorem alike_after {v : DbEnv} (ho : 0 < v.q.default ∧ v.q.default ≤ v.q.max) (q : Query) (now : Int) (opts : Option QOpts) :
    Alike v { q with contract := (q.ask v.dur now v.q).contract, limit := (q.ask v.dur now v.q).limit, cutoff := (q.ask v.dur now v.q).cutoff, opts := opts } q := by
  refine ⟨rfl, fun now' => ?_⟩
  simp only [Query.ask]
  have hc : topicLast v.dur now (parseOptions (parseKey q.topic).2) = none ↔ topicLast v.dur now' (parseOptions (parseKey q.topic).2) = none := by
    simp only [topicLast, Option.map_eq_none_iff]
  congr 1
  · by_cases h : q.contract = 0
    · simp [h, masterContract_ne]
    · simp [h]
  · cases h1 : topicLast v.dur now (parseOptions (parseKey q.topic).2) with
    | none => rw [hc.1 h1]
    | some x =>
      cases h2 : topicLast v.dur now' (parseOptions (parseKey q.topic).2) with
      | none => rw [hc.2 h2] at h1; cases h1
      | some y => rfl
  · rw [resolveLimit_count (topicLast_number (now := now) (now' := now'))]
    exact resolveLimit_again ho _ _ fun x hx => topicLast_nonneg hx

theorem Alike.get {v : DbEnv} {q q' : Query} (h : Alike v q q') (g : GetEnv) (s : Db) (old : List UInt64) : s.get v g q old = s.get v g q' old := by
  simp only [Db.get, h.1, h.2]

theorem Alike.trans {v : DbEnv} {a b c : Query} (h : Alike v a b) (h' : Alike v b c) : Alike v a c := ⟨h.1.trans h'.1, fun n => (h.2 n).trans (h'.2 n)⟩

theorem getWith_fst (v : DbEnv) (g : GetEnv) (s : Db) (u : UsedQuery) : (s.getWith v g u).1 = (s.get v g u.q u.cands).1 ∧ (s.getWith v g u).2.2 = (s.get v g u.q u.cands).2 := by
  simp only [Db.getWith]
  split
  · exact ⟨rfl, rfl⟩
  · split <;> exact ⟨rfl, rfl⟩

theorem getWith_alike {v : DbEnv} (ho : 0 < v.q.default ∧ v.q.default ≤ v.q.max) (g : GetEnv) (s : Db) (u : UsedQuery) : Alike v (s.getWith v g u).2.1.q u.q := by
  simp only [Db.getWith]
  split
  · exact ⟨rfl, fun _ => rfl⟩
  · split
    · exact ⟨rfl, fun _ => rfl⟩
    · exact alike_after ho _ _ _

/-- C102 (partial: as long as the Gets before found nothing, and the topic is not changed). A query object may be given to Get again and again until there is something to find: every Get returns what it returns
for a new query with the same fields, at whatever time, for databases whose default limit is positive and at most the maximum. -/
theorem C102_waiting_partial (v : DbEnv) (ho : 0 < v.q.default ∧ v.q.default ≤ v.q.max) (s : Db) (q : Query) (ops : List QueryOp) (ht : ∀ t, .topic t ∉ ops)
    (hn : Spec.FindsNothing v s ⟨q, []⟩ ops) : s.program v ⟨q, []⟩ ops = Spec.afresh v s q ops := by
  suffices H : ∀ (ops : List QueryOp) (s : Db) (u : UsedQuery), (∀ t, .topic t ∉ ops) → u.cands = [] ∨ ops = [] → Alike v u.q q → Spec.FindsNothing v s u ops →
      s.program v u ops = Spec.afresh v s q ops from H ops s ⟨q, []⟩ ht (.inl rfl) ⟨rfl, fun _ => rfl⟩ hn
  intro ops
  induction ops with
  | nil => intros; rfl
  | cons op ops ih =>
    intro s u ht hu ha hn
    have hc : u.cands = [] := hu.resolve_right (by simp)
    have ht' : ∀ t, .topic t ∉ ops := fun t h => ht t (List.mem_cons_of_mem _ h)
    cases op with
    | topic t => exact absurd List.mem_cons_self (ht t)
    | put now o => exact ih _ u ht' (.inl hc) ha hn
    | get g =>
      simp only [Db.program, Spec.afresh]
      obtain ⟨e1, e2⟩ := getWith_fst v g s u
      rw [hc, ha.get g s []] at e1 e2
      rw [e2, e1]
      congr 1
      rw [← e1]
      refine (ih _ _ ht' ?_ ((getWith_alike ho g s u).trans ha) hn.2).trans ?_
      · by_cases h : ops = []
        · exact .inr h
        · exact .inl (hn.1 h)
      · rw [e1]

/-! ## Concrete databases -/

def toyProgram (q : Query) (ops : List QueryOp) : Option (List DGet × List DGet) :=
  (toyOpen {} 5000 {}).map fun s => (s.program .toy ⟨q, []⟩ ops, Spec.afresh .toy s q ops)

/-- A message for the topic `b`. -/
def toyOther : Obj := { topic := [98], payload := [2, 2, 2, 2] }

/-- A Get that finds nothing, then a put, then a Get that finds it: the hypotheses of `C102_waiting_partial` hold. -/
example : ((toyOpen {} 5000 {}).map fun s => ((s.getWith .toy .toy ⟨newQuery [97], []⟩).2.1.cands, s.program .toy ⟨newQuery [97], []⟩ [.get .toy, .put toyNow toyEntry, .get .toy])) =
    some ([], [.out (.ok []), .out (.ok [[1, 1, 1, 1]])]) := by decide +kernel

/-- C102 is false: the same query for the same topic returns the message twice. -/
theorem C102_again_violated : toyProgram (newQuery [97]) [.put toyNow toyEntry, .get .toy, .get .toy] =
    some ([.out (.ok [[1, 1, 1, 1]]), .out (.ok [[1, 1, 1, 1], [1, 1, 1, 1]])], [.out (.ok [[1, 1, 1, 1]]), .out (.ok [[1, 1, 1, 1]])]) := by decide +kernel

/-- C102 is false: a query whose topic is set to `b` still returns the message of `a`. -/
theorem C102_topic_violated : toyProgram (newQuery [97]) [.put toyNow toyEntry, .put toyNow toyOther, .get .toy, .topic [98], .get .toy] =
    some ([.out (.ok [[1, 1, 1, 1]]), .out (.ok [[2, 2, 2, 2], [1, 1, 1, 1]])], [.out (.ok [[1, 1, 1, 1]]), .out (.ok [[2, 2, 2, 2]])]) := by decide +kernel

/-- C102 is false, also when nothing was found: a query for `c?last=0s`, then for `a`, misses the message that was put a second ago. -/
theorem C102_cutoff_violated : toyProgram (newQuery [99, 63, 108, 97, 115, 116, 61, 48, 115]) [.put (toyNow - 1000000000) toyEntry, .get .toy, .topic [97], .get .toy] =
    some ([.out (.ok []), .out (.ok [])], [.out (.ok []), .out (.ok [[1, 1, 1, 1]])]) := by decide +kernel

/-- C102 is false, also when nothing was found: a query for `c`, then for `a?last=1`, returns both messages of `a` instead of the newest. -/
theorem C102_limit_violated : toyProgram (newQuery [99])
      [.put toyNow toyEntry, .put toyNow { toyEntry with payload := [3, 3, 3, 3] }, .get .toy, .topic [97, 63, 108, 97, 115, 116, 61, 49], .get .toy] =
    some ([.out (.ok []), .out (.ok [[3, 3, 3, 3], [1, 1, 1, 1]])], [.out (.ok []), .out (.ok [[3, 3, 3, 3]])]) := by decide +kernel

end Verif
