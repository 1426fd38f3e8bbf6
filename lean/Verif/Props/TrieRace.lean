import Verif.Model.TrieRaceInv
import Verif.Props.Topic
import Mathlib.Data.List.Infix

/-!
# C78: topics put at the same time
-/

namespace Verif

/-- Puts of new topics at the same time: the adds run interleaved as `sched` says, on the trie `h`. -/
def HTrie.burst (mu : UInt64 → Nat) (h : HTrie) (topics : List (UInt32 × Bytes)) (sched : List Nat) : Race :=
  Race.run mu ⟨h, topics.map putAdd⟩ sched

/-- All adds have returned. -/
def Race.over (s : Race) : Bool := s.adds.all fun a => match a.pc with | .done _ => true | _ => false

/-- Contract and levels, as the trie files them. -/
def Spec.way (t : UInt32 × Bytes) : List Part := (parseTopic t.1 t.2).1.parts

/-- What two topics of a burst have in common, from the contract on, is already the beginning of a stored topic. -/
def Spec.Apart (stored burst : List (UInt32 × Bytes)) : Prop :=
  ∀ (i j : Nat) a b, burst[i]? = some a → burst[j]? = some b → i ≠ j → topicHash a.1 a.2 ≠ topicHash b.1 b.2 →
    ∀ pre, pre ≠ [] → pre <+: Spec.way a → pre <+: Spec.way b → ∃ t ∈ stored, pre <+: Spec.way t

/-- The tries that bursts of puts leave behind, with the topics put. -/
inductive Spec.Bursts (mu : UInt64 → Nat) : HTrie → List (UInt32 × Bytes) → Prop
  | start : Spec.Bursts mu {} []
  | burst {h : HTrie} {stored : List (UInt32 × Bytes)} (topics : List (UInt32 × Bytes)) (sched : List Nat) :
      Spec.Bursts mu h stored → Spec.Apart stored topics → (h.burst mu topics sched).over = true →
      Spec.Bursts mu (h.burst mu topics sched).trie (stored ++ topics)

theorem Spec.Bursts.good {mu : UInt64 → Nat} {h : HTrie} {ts : List (UInt32 × Bytes)} (b : Spec.Bursts mu h ts)
    (hw : ∀ t ∈ ts, Spec.startsWithStar (Spec.topicText t.2) = false)
    (hown : ∀ t ∈ ts, ∀ t' ∈ ts, topicHash t.1 t.2 = topicHash t'.1 t'.2 → Spec.way t = Spec.way t') :
    ∃ l, h.Good depthOf l ∧ (∀ e ∈ l, ∃ t ∈ ts, e = (putAdd t).entry) ∧ ∀ t ∈ ts, topicHash t.1 t.2 ∈ l.map TEntry.hash := by
  induction b with
  | start => exact ⟨[], HTrie.good_empty _, by simp, by simp⟩
  | @burst h stored topics sched b hap hov ih =>
    obtain ⟨l, G, h1, h2⟩ := ih (fun t ht => hw t (List.mem_append_left _ ht))
      (fun t ht t' ht' => hown t (List.mem_append_left _ ht) t' (List.mem_append_left _ ht'))
    have I0 : RaceInv mu depthOf ⟨h, topics.map putAdd⟩ l := by
      refine G.start (topics.map putAdd) ?_ ?_ ?_
      · intro a ha
        obtain ⟨t, _, rfl⟩ := List.mem_map.1 ha
        rfl
      · intro a ha
        obtain ⟨t, ht, rfl⟩ := List.mem_map.1 ha
        exact depth_parseTopic _ _ (hw t (List.mem_append_right _ ht))
      · intro i j a b hi hj hne hh pre ha hb
        by_cases hp : pre = []
        · subst hp; exact ⟨0, rfl⟩
        simp only [List.getElem?_map, Option.map_eq_some_iff] at hi hj
        obtain ⟨t, hi, rfl⟩ := hi
        obtain ⟨t', hj, rfl⟩ := hj
        obtain ⟨u, hu, rest, hr⟩ := hap i j t t' hi hj hne hh pre hp ha hb
        obtain ⟨e, he, heh⟩ := List.mem_map.1 (h2 u hu)
        obtain ⟨u', hu', rfl⟩ := h1 e he
        obtain ⟨n, hn⟩ := G.known _ he
        have hn : h.pathFrom 0 (Spec.way u') = some n := hn
        have hsame : Spec.way u' = Spec.way u := hown u' (List.mem_append_left _ hu') u (List.mem_append_left _ hu) heh
        rw [hsame, ← hr, HTrie.pathFrom_append, Option.bind_eq_some_iff] at hn
        obtain ⟨m, hm, _⟩ := hn
        exact ⟨m, hm⟩
    obtain ⟨l', I1, ⟨new, rfl, h3⟩, h4⟩ := I0.run sched
    have hd : ∀ a ∈ (h.burst mu topics sched).adds, ∃ x, a.pc = .done x := by
      intro a ha
      have := List.all_eq_true.1 hov a ha
      split at this
      · next x hx => exact ⟨x, hx⟩
      · simp at this
    obtain ⟨G', h5⟩ := I1.finish hd
    refine ⟨_, G', ?_, ?_⟩
    · intro e he
      rcases List.mem_append.1 he with he | he
      · obtain ⟨t, ht, rfl⟩ := h1 e he
        exact ⟨t, List.mem_append_left _ ht, rfl⟩
      · obtain ⟨a, ha, rfl⟩ := List.mem_map.1 (h3 e he)
        obtain ⟨t, ht, rfl⟩ := List.mem_map.1 ha
        exact ⟨t, List.mem_append_right _ ht, rfl⟩
    · intro t ht
      rcases List.mem_append.1 ht with ht | ht
      · rw [List.map_append]
        exact List.mem_append_left _ (h2 t ht)
      · have hm : (putAdd t).entry ∈ ((h.burst mu topics sched).adds).map Adder.entry := by
          rw [HTrie.burst, h4]
          exact List.mem_map_of_mem (List.mem_map_of_mem ht)
        obtain ⟨a, ha, he⟩ := List.mem_map.1 hm
        have := h5 a ha
        have e2 : a.topic.hash = topicHash t.1 t.2 := congrArg TEntry.hash he
        rwa [e2] at this

theorem trieRun_puts (ts : List (UInt32 × Bytes)) : ∀ (l : List TEntry), ∀ e ∈ ((ts.map fun t => TopicOp.add t.1 t.2 0).map TopicOp.toTrie).foldl Spec.trieStep l,
    e ∈ l ∨ ∃ t ∈ ts, e = (putAdd t).entry := by
  induction ts with
  | nil => intro l e he; exact .inl he
  | cons t ts ih =>
    intro l e he
    rw [List.map_cons, List.map_cons, List.foldl_cons] at he
    rcases ih _ e he with h | ⟨t', ht', h⟩
    · simp only [TopicOp.toTrie, Spec.trieStep] at h
      split at h
      · exact .inl h
      · rcases List.mem_append.1 h with h | h
        · exact .inl h
        · rw [List.mem_singleton] at h
          exact .inr ⟨t, List.mem_cons_self, h⟩
    · exact .inr ⟨t', List.mem_cons_of_mem _ ht', h⟩

/-- C78. However the puts of a burst interleave, and for any number of bursts, afterwards every query finds exactly the topics it finds
when the same topics are put one after the other - provided what two topics of one burst have in common was already stored
before that burst (else refuted: `C78_lost_violated`), no topic begins with a star (C16) and topics do not clash by hash (C17). -/
theorem C78_found_partial (mu : UInt64 → Nat) (h : HTrie) (ts : List (UInt32 × Bytes)) (b : Spec.Bursts mu h ts)
    (hw : ∀ t ∈ ts, Spec.startsWithStar (Spec.topicText t.2) = false)
    (hown : ∀ t ∈ ts, ∀ t' ∈ ts, topicHash t.1 t.2 = topicHash t'.1 t'.2 → Spec.way t = Spec.way t')
    (c : UInt32) (key : Bytes) (x : TTopic) :
    x ∈ h.find c key ↔ x ∈ (Trie.ofTopics (ts.map fun t => .add t.1 t.2 0)).find c key := by
  obtain ⟨l, G, h1, h2⟩ := b.good hw hown
  have hS := trieInv_run ((ts.map fun t => TopicOp.add t.1 t.2 0).map TopicOp.toTrie)
  have hdS := depth_consistent (ts.map fun t => TopicOp.add t.1 t.2 0) (by
    intro c key off hin
    obtain ⟨t, ht, e⟩ := List.mem_map.1 hin
    simp only [TopicOp.add.injEq] at e
    rw [← e.2.1]
    exact hw t ht)
  obtain ⟨l', hl'⟩ : ∃ l', l' = Spec.trieRun ((ts.map fun t => TopicOp.add t.1 t.2 0).map TopicOp.toTrie) := ⟨_, rfl⟩
  have hsub : ∀ e ∈ l', ∃ t ∈ ts, e = (putAdd t).entry := by
    intro e he
    rw [hl'] at he
    rcases trieRun_puts ts [] e he with h | h
    · simp at h
    · exact h
  have hin : ∀ t ∈ ts, topicHash t.1 t.2 ∈ l'.map TEntry.hash := by
    intro t ht
    obtain ⟨a, ha, e⟩ := hash_mem_trieRun ((ts.map fun t => TopicOp.add t.1 t.2 0).map TopicOp.toTrie) ⟨topicHash t.1 t.2, 0⟩ _ _
      (List.mem_map.2 ⟨_, List.mem_map.2 ⟨t, ht, rfl⟩, rfl⟩)
    rw [hl']
    exact List.mem_map.2 ⟨a, ha, e⟩
  have hsame : ∀ t ∈ ts, ∀ t' ∈ ts, topicHash t.1 t.2 = topicHash t'.1 t'.2 → (putAdd t).entry = (putAdd t').entry := by
    intro t ht t' ht' e
    have hp := hown t ht t' ht' e
    have d1 := depth_parseTopic t.1 t.2 (hw t ht)
    have d2 := depth_parseTopic t'.1 t'.2 (hw t' ht')
    have hp' : (parseTopic t.1 t.2).1.parts = (parseTopic t'.1 t'.2).1.parts := hp
    simp only [Adder.entry, putAdd, TEntry.mk.injEq, and_true]
    exact ⟨e, hp', by rw [d1, d2, hp']⟩
  have hset : ∀ e, e ∈ l ↔ e ∈ l' := by
    intro e
    constructor
    · intro he
      obtain ⟨t, ht, rfl⟩ := h1 e he
      obtain ⟨e', he', hh⟩ := List.mem_map.1 (hin t ht)
      obtain ⟨t', ht', rfl⟩ := hsub e' he'
      rwa [hsame t' ht' t ht hh] at he'
    · intro he
      obtain ⟨t, ht, rfl⟩ := hsub e he
      obtain ⟨e', he', hh⟩ := List.mem_map.1 (h2 t ht)
      obtain ⟨t', ht', rfl⟩ := h1 e' he'
      rwa [hsame t' ht' t ht hh] at he'
  have e1 := lookup_iff G.trieInv depthOf G.ofList (parseTopic c key).1.parts (parseTopic c key).1.depth (parseTopic c key).2 x
  have e2 := lookup_iff hS depthOf hdS (parseTopic c key).1.parts (parseTopic c key).1.depth (parseTopic c key).2 x
  rw [← hl'] at e2
  simp only [hset] at e1
  exact e1.trans e2.symm

/-- C78, for one topic: a topic without wildcards that was put, alone or in a burst, is found under its name. -/
theorem C78_exact_partial (mu : UInt64 → Nat) (h : HTrie) (ts : List (UInt32 × Bytes)) (b : Spec.Bursts mu h ts)
    (hw : ∀ t ∈ ts, Spec.startsWithStar (Spec.topicText t.2) = false)
    (hown : ∀ t ∈ ts, ∀ t' ∈ ts, topicHash t.1 t.2 = topicHash t'.1 t'.2 → Spec.way t = Spec.way t')
    (t : UInt32 × Bytes) (ht : t ∈ ts) (hst : Spec.isStatic (Spec.topicText t.2) = true) : ⟨topicHash t.1 t.2, 0⟩ ∈ h.find t.1 t.2 := by
  have hm : ∀ c key off, TopicOp.add c key off ∈ (ts.map fun t => TopicOp.add t.1 t.2 0) → (c, key) ∈ ts ∧ off = 0 := by
    intro c key off hin
    obtain ⟨t, ht, e⟩ := List.mem_map.1 hin
    simp only [TopicOp.add.injEq] at e
    obtain ⟨rfl, rfl, rfl⟩ := e
    exact ⟨ht, rfl⟩
  obtain ⟨l, G, h1, h2⟩ := b.good hw hown
  rw [C78_found_partial mu h ts b hw hown]
  obtain ⟨o, _, ho⟩ := C15_exact_topic_found_partial (ts.map fun t => TopicOp.add t.1 t.2 0) t.1 t.2 0 (List.mem_map.2 ⟨t, ht, rfl⟩) hst
    (fun c key off hin => hw _ (hm c key off hin).1) (fun c key off hin => hown (c, key) (hm c key off hin).1 t ht)
  have : o = 0 := by
    rw [← C78_found_partial mu h ts b hw hown] at ho
    obtain ⟨a, ha, he, _⟩ := (lookup_iff G.trieInv depthOf G.ofList (parseTopic t.1 t.2).1.parts (parseTopic t.1 t.2).1.depth (parseTopic t.1 t.2).2 _).1 ho
    obtain ⟨t', _, rfl⟩ := h1 a ha
    exact congrArg TTopic.offset he
  rwa [this] at ho

/-! ## Cases -/

/-- "a.b", "a.c" and "d" of the master contract. -/
def raceAB : UInt32 × Bytes := (masterContract, [97, 46, 98])
def raceAC : UInt32 × Bytes := (masterContract, [97, 46, 99])
def raceD : UInt32 × Bytes := (masterContract, [100])

/-- Three bursts with the mutexes of the code: a topic alone, then two topics that share with each other only what the first has,
in lock step, then one of them again. -/
def raceStepped : List Nat := [0, 1, 0, 1, 0, 1, 0, 1, 0, 1, 0, 1, 0, 1, 0, 1, 0, 1, 0, 1]

theorem apart_of (stored : List (UInt32 × Bytes)) (a b : UInt32 × Bytes)
    (h : ∀ pre ∈ (Spec.way a).inits, pre ≠ [] → pre <+: Spec.way b → ∃ t ∈ stored, pre <+: Spec.way t) : Spec.Apart stored [a, b] := by
  intro i j x y hi hj hne _ pre hp hx hy
  have hi' : i < 2 := by
    rcases Nat.lt_or_ge i 2 with h | h
    · exact h
    · rw [List.getElem?_eq_none (by simpa using h)] at hi; simp at hi
  have hj' : j < 2 := by
    rcases Nat.lt_or_ge j 2 with h | h
    · exact h
    · rw [List.getElem?_eq_none (by simpa using h)] at hj; simp at hj
  obtain ⟨rfl, rfl⟩ | ⟨rfl, rfl⟩ : (i = 0 ∧ j = 1) ∨ (i = 1 ∧ j = 0) := by omega
  · simp only [List.getElem?_cons_zero, List.getElem?_cons_succ, Option.some.injEq] at hi hj
    subst hi hj
    exact h pre ((List.mem_inits _ _).2 hx) hp hy
  · simp only [List.getElem?_cons_zero, List.getElem?_cons_succ, Option.some.injEq] at hi hj
    subst hi hj
    exact h pre ((List.mem_inits _ _).2 hy) hp hx

theorem apart_single (stored : List (UInt32 × Bytes)) (a : UInt32 × Bytes) : Spec.Apart stored [a] := by
  intro i j x y hi hj hne
  have hi' : i = 0 := by
    cases i
    · rfl
    · simp at hi
  have hj' : j = 0 := by
    cases j
    · rfl
    · simp at hj
  omega

example : ∃ h, Spec.Bursts trieMutex h [raceAB, raceAC, raceD, raceAC] ∧ ∀ t ∈ [raceAB, raceAC, raceD], ⟨topicHash t.1 t.2, 0⟩ ∈ h.find t.1 t.2 := by
  have b1 : Spec.Bursts trieMutex _ ([] ++ [raceAB]) := .burst [raceAB] raceStepped .start (apart_single _ _) (by decide +kernel)
  have b2 := Spec.Bursts.burst [raceAC, raceD] raceStepped b1 (apart_of _ _ _ (by decide +kernel)) (by decide +kernel)
  have b3 := Spec.Bursts.burst [raceAC] raceStepped b2 (apart_single _ _) (by decide +kernel)
  refine ⟨_, b3, fun t ht => ?_⟩
  refine C78_exact_partial _ _ _ b3 (by decide +kernel) (by decide +kernel) t ?_ ?_
  · revert t; decide +kernel
  · revert t; decide +kernel

/-- A put of a topic the trie knows leaves it alone. -/
theorem burst_known (mu : UInt64 → Nat) (h : HTrie) (t : UInt32 × Bytes) (hk : (h.summary.get (topicHash t.1 t.2)).isSome = true) (sched : List Nat) :
    (h.burst mu [t] sched).trie = h := by
  suffices ∀ (sched : List Nat) (pc : AddPc), pc = .ready ∨ pc = .done false →
      (Race.run mu ⟨h, [{ putAdd t with pc := pc }]⟩ sched).trie = h from this sched .ready (.inl rfl)
  intro sched
  induction sched with
  | nil => intro pc _; rfl
  | cons i sched ih =>
    intro pc hpc
    rw [Race.run, List.foldl_cons]
    cases i with
    | succ i => exact ih pc hpc
    | zero =>
      rcases hpc with rfl | rfl
      · have : Race.step mu ⟨h, [{ putAdd t with pc := .ready }]⟩ 0 = ⟨h, [{ putAdd t with pc := .done false }]⟩ := by
          have hk' : (h.summary.get (putAdd t).topic.hash).isSome = true := hk
          simp [Race.step, Adder.busy, Adder.step, hk']
        rw [this]
        exact ih _ (.inr rfl)
      · have : Race.step mu ⟨h, [{ putAdd t with pc := .done false }]⟩ 0 = ⟨h, [{ putAdd t with pc := .done false }]⟩ := by
          simp [Race.step, Adder.step]
        rw [this]
        exact ih _ (.inr rfl)

/-- C78 is false in general: two topics of one contract are the first of it; both adds find no node for the contract, both link one, and the
second link hides the first. Both puts have returned, the topic counts as known (`getOffset`), but no query finds it; and no later
put of it repairs this, because a known topic is not added again. -/
theorem C78_lost_violated : ∃ sched, (HTrie.burst trieMutex {} [raceAB, raceD] sched).over = true ∧
    (HTrie.burst trieMutex {} [raceAB, raceD] sched).trie.find raceAB.1 raceAB.2 = [] ∧
    (HTrie.burst trieMutex {} [raceAB, raceD] sched).trie.getOffset (topicHash raceAB.1 raceAB.2) = some 0 ∧
    ∀ sched', (HTrie.burst trieMutex (HTrie.burst trieMutex {} [raceAB, raceD] sched).trie [raceAB] sched').trie.find raceAB.1 raceAB.2 = [] := by
  refine ⟨raceStepped, by decide +kernel, by decide +kernel, by decide +kernel, fun sched' => ?_⟩
  rw [burst_known _ _ _ (by decide +kernel)]
  decide +kernel

end Verif
