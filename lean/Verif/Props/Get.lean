import Verif.Model.GetLemmas
import Verif.Model.TimeWindow
import Verif.Props.Message

/-!
# C18, C20 - C24: what Get returns

Every theorem is about `dbGet`: any in-memory store, files, window contents, clock, query, topics found, capacity of the candidate
slice and order of map iteration.
-/

namespace Verif

/-- The items a Get handed to the caller, also when it ends with an error. -/
def GetOut.items : GetOut → List Bytes
  | .ok r => r
  | .err r => r
  | .panic => []
  | .running => []

theorem candStep_skip (v : View) (contract : UInt32) (cutoff : Int) (c : UInt64) :
    candStep v contract cutoff c = .skip ↔ c = 0 := by
  unfold candStep
  by_cases h : c = 0
  · simp [h]
  · simp only [h, if_false, iff_false]
    repeat' split
    all_goals simp

/-- What it means that a candidate yields a payload. -/
theorem candStep_item {v : View} {contract : UInt32} {cutoff : Int} {c : UInt64} {x : Bytes}
    (h : candStep v contract cutoff c = .item x) :
    c ≠ 0 ∧ ∃ id val, fetch v c = .ok id val ∧ evalPrefix id contract cutoff = some true ∧
      ∃ y, (if id[8]? = some 1 then v.decrypt val else some val) = some y ∧ v.decode y = some x := by
  unfold candStep at h
  split at h
  · cases h
  · next h0 =>
    refine ⟨h0, ?_⟩
    split at h
    · cases h
    · cases h
    · cases h
    · next id val hf =>
      split at h
      · cases h
      · cases h
      · next he =>
        split at h
        · cases h
        · next y hy =>
          split at h
          · cases h
          · next z hz =>
            cases h
            exact ⟨id, val, hf, he, y, hy, hz⟩

theorem payloads_forall {step : UInt64 → Step} (cs : List UInt64) : ∀ r : List Bytes, r <+: payloads step cs →
    ∃ ss : List UInt64, ss.Sublist cs ∧ List.Forall₂ (fun s x => step s = .item x) ss r := by
  induction cs with
  | nil =>
    intro r h
    rw [payloads_nil, List.prefix_nil] at h
    subst h
    exact ⟨[], List.Sublist.refl _, .nil⟩
  | cons c cs ih =>
    intro r h
    cases hs : step c with
    | item x =>
      have e : payloads step (c :: cs) = x :: payloads step cs := by simp [payloads, hs]
      rw [e] at h
      cases r with
      | nil => exact ⟨[], List.nil_sublist _, .nil⟩
      | cons y r =>
        rw [List.cons_prefix_cons] at h
        obtain ⟨rfl, h⟩ := h
        obtain ⟨ss, h1, h2⟩ := ih r h
        exact ⟨c :: ss, h1.cons₂ c, .cons hs h2⟩
    | _ =>
      have e : payloads step (c :: cs) = payloads step cs := by simp [payloads, hs]
      rw [e] at h
      obtain ⟨ss, h1, h2⟩ := ih r h
      exact ⟨ss, h1.cons c, h2⟩

theorem sortDesc_perm (cands : List UInt64) : (sortDesc cands).Perm cands := List.perm_insertionSort ..

theorem sortDesc_sorted (cands : List UInt64) : (sortDesc cands).Pairwise (fun a b => b ≤ a) := by
  have : Std.Total (fun a b : UInt64 => b ≤ a) := ⟨fun a b => UInt64.le_total b a⟩
  have : IsTrans UInt64 (fun a b : UInt64 => b ≤ a) := ⟨fun a b c h1 h2 => UInt64.le_trans h2 h1⟩
  exact List.pairwise_insertionSort ..

/-- The common form: the items are payloads of candidates, in the order of the sorted candidates. -/
theorem dbGet_items {v : View} {now : UInt32} {lists : UInt64 → List (List WinEntry)} {file : Bytes} {a : Ask}
    {topics : List (UInt64 × Int)} {old : List UInt64} {cap : Nat} (hq : 0 ≤ a.limit)
    (h : (dbGet v now lists file a topics old cap).items ≠ []) :
    ∃ cands, dbLookup now lists file a.cutoff a.limit topics old = some cands ∧
      ∃ ss : List UInt64, ss.Sublist (sortDesc cands) ∧
        List.Forall₂ (fun s x => candStep v a.contract a.cutoff s = .item x) ss (dbGet v now lists file a topics old cap).items := by
  unfold dbGet at h ⊢
  cases hl : dbLookup now lists file a.cutoff a.limit topics old with
  | none => rw [hl] at h; exact absurd rfl h
  | some cands =>
    refine ⟨cands, rfl, ?_⟩
    have hg := getItems_spec (candStep_skip v a.contract a.cutoff) (sortDesc cands) cap a.limit hq
    dsimp only
    cases ho : getItems (candStep v a.contract a.cutoff) (sortDesc cands) cap a.limit with
    | ok r => rw [ho] at hg; exact payloads_forall _ r hg.2.1
    | err r => rw [ho] at hg; exact payloads_forall _ r hg.2
    | panic => exact ⟨[], List.nil_sublist _, .nil⟩
    | running => exact ⟨[], List.nil_sublist _, .nil⟩

theorem item_from {v : View} {now : UInt32} {lists : UInt64 → List (List WinEntry)} {file : Bytes} {a : Ask}
    {topics : List (UInt64 × Int)} {old : List UInt64} {cap : Nat} (hq : 0 ≤ a.limit) {x : Bytes}
    (hx : x ∈ (dbGet v now lists file a topics old cap).items) :
    ∃ cands, dbLookup now lists file a.cutoff a.limit topics old = some cands ∧ ∃ s ∈ cands,
      candStep v a.contract a.cutoff s = .item x := by
  obtain ⟨cands, h1, ss, h2, h3⟩ := dbGet_items hq (List.ne_nil_of_mem hx)
  refine ⟨cands, h1, ?_⟩
  have : ∃ s ∈ ss, candStep v a.contract a.cutoff s = .item x := by
    revert hx
    generalize (dbGet v now lists file a topics old cap).items = r at h3
    intro hx
    clear h2
    induction h3 with
    | nil => simp at hx
    | cons hh _ ih =>
      rcases List.mem_cons.1 hx with rfl | hx
      · exact ⟨_, by simp, hh⟩
      · obtain ⟨s, hs, h⟩ := ih hx
        exact ⟨s, List.mem_cons_of_mem _ hs, h⟩
  obtain ⟨s, hs, h⟩ := this
  exact ⟨s, (sortDesc_perm cands).subset (h2.subset hs), h⟩

/-- C18. Every message that Get returns carries the contract of the query in its stored id. -/
theorem C18_contracts_isolated (v : View) (now : UInt32) (lists : UInt64 → List (List WinEntry)) (file : Bytes) (a : Ask)
    (topics : List (UInt64 × Int)) (old : List UInt64) (cap : Nat) (hq : 0 ≤ a.limit) (x : Bytes)
    (hx : x ∈ (dbGet v now lists file a topics old cap).items) :
    ∃ s id val, fetch v s = .ok id val ∧ get32 id 4 = some a.contract ∧
      ∃ y, (y = val ∨ v.decrypt val = some y) ∧ v.decode y = some x := by
  obtain ⟨_, _, s, _, h⟩ := item_from hq hx
  obtain ⟨_, id, val, h1, h2, y, h3, h4⟩ := candStep_item h
  refine ⟨s, id, val, h1, ?_, y, ?_, h4⟩
  · unfold evalPrefix at h2
    simp only [Option.bind_eq_bind, Option.bind_eq_some_iff] at h2
    obtain ⟨c, hc, h2⟩ := h2
    have : c = a.contract := by
      split at h2
      · simp only [Option.bind_eq_some_iff] at h2
        obtain ⟨t, _, h2⟩ := h2
        simp at h2
        exact h2.2
      · simpa using h2
    rw [← this]; exact hc
  · split at h3
    · exact .inr h3
    · left; exact (Option.some.inj h3).symm

/-- C18: the id a put stores (its first eight bytes and any flag byte) carries the contract of the put. -/
theorem C18_put_sets_contract (id : Bytes) (c : UInt32) (flag : UInt8) (h : id.length = 16) :
    ∃ p, idPrefix (setContract id c) = some p ∧ get32 (p ++ [flag]) 4 = some c := by
  have e : setContract id c = id.take 4 ++ put32 c ++ id.drop 8 := by
    have : (id ++ List.replicate 16 0).take 16 = id := by rw [← h, List.take_left']; rfl
    simp only [setContract, this, patch, length_put32]
  have l4 : (id.take 4).length = 4 := by simp; omega
  refine ⟨id.take 4 ++ put32 c, ?_, ?_⟩
  · rw [e, idPrefix]; exact slice?_append_left _ _ 8 (by simp; omega)
  · simp [get32_skip, l4]

example : (newID 1600000000 7).length = 16 := by decide

/-- C20. Get returns at most as many messages as the limit, whether or not it ends with an error. -/
theorem C20_at_most_limit (v : View) (now : UInt32) (lists : UInt64 → List (List WinEntry)) (file : Bytes) (a : Ask)
    (topics : List (UInt64 × Int)) (old : List UInt64) (cap : Nat) (hq : 0 ≤ a.limit) :
    ((dbGet v now lists file a topics old cap).items.length : Int) ≤ a.limit := by
  unfold dbGet
  split
  · simpa [GetOut.items] using hq
  · next cands _ =>
    have hg := getItems_spec (candStep_skip v a.contract a.cutoff) (sortDesc cands) cap a.limit hq
    cases ho : getItems (candStep v a.contract a.cutoff) (sortDesc cands) cap a.limit with
    | ok r => rw [ho] at hg; exact hg.1
    | err r => rw [ho] at hg; exact hg.1
    | panic => simpa [GetOut.items] using hq
    | running => simpa [GetOut.items] using hq

/-- C21. When the lookup yields no candidate twice, Get returns the payloads of distinct messages in decreasing sequence order,
and if it ends without error it returns the newest of the readable candidates, as many as the limit allows. Partial: the lookup can
yield repeats, see `C21_repeats_violated`. -/
theorem C21_newest_first_partial (v : View) (now : UInt32) (lists : UInt64 → List (List WinEntry)) (file : Bytes) (a : Ask)
    (topics : List (UInt64 × Int)) (old cands : List UInt64) (cap : Nat) (hq : 0 ≤ a.limit)
    (hl : dbLookup now lists file a.cutoff a.limit topics old = some cands) (hnd : cands.Nodup) :
    (∃ ss : List UInt64, ss.Pairwise (· > ·) ∧ (∀ s ∈ ss, s ∈ cands) ∧
      List.Forall₂ (fun s x => candStep v a.contract a.cutoff s = .item x) ss (dbGet v now lists file a topics old cap).items) ∧
    ∀ r, dbGet v now lists file a topics old cap = .ok r → (∀ c ∈ cands, c ≠ 0) →
      r = ((sortDesc cands).filterMap fun c => match candStep v a.contract a.cutoff c with | .item x => some x | _ => none).take
        a.limit.toNat := by
  have hsorted : (sortDesc cands).Pairwise (· > ·) := by
    have h1 := sortDesc_sorted cands
    have h2 : (sortDesc cands).Nodup := (sortDesc_perm cands).nodup_iff.2 hnd
    exact (h1.and h2).imp fun ⟨h3, h4⟩ => UInt64.lt_of_le_of_ne h3 (Ne.symm h4)
  refine ⟨?_, ?_⟩
  · by_cases he : (dbGet v now lists file a topics old cap).items = []
    · rw [he]; exact ⟨[], .nil, by simp, .nil⟩
    · obtain ⟨cands', h1, ss, h2, h3⟩ := dbGet_items hq he
      rw [hl] at h1
      cases h1
      exact ⟨ss, hsorted.sublist h2, fun s hs => (sortDesc_perm cands).subset (h2.subset hs), h3⟩
  · intro r hr hnz
    unfold dbGet at hr
    rw [hl] at hr
    dsimp only at hr
    have hg := getItems_spec (candStep_skip v a.contract a.cutoff) (sortDesc cands) cap a.limit hq
    rw [hr] at hg
    exact hg.2.2 fun c hc => hnz c ((sortDesc_perm cands).subset hc)

/-- C22. Get ends, whatever it finds. -/
theorem C22_ends (v : View) (now : UInt32) (lists : UInt64 → List (List WinEntry)) (file : Bytes) (a : Ask)
    (topics : List (UInt64 × Int)) (old : List UInt64) (cap : Nat) (hq : 0 ≤ a.limit) :
    dbGet v now lists file a topics old cap ≠ .running := by
  unfold dbGet
  split
  · simp
  · next cands _ =>
    unfold getItems
    split
    · simp
    · refine getLoop_ends _ _ _ _ _ _ _ _ (by omega) ?_
      split <;> omega

/-- C22. Get does not panic when the lookup and the reading of single messages do not and the candidates are at most as many as the
limit, or at least as many as the limit and the invalid candidates together. Partial: in between it can,
`C22_overrun_violated`. -/
theorem C22_no_crash_partial (v : View) (now : UInt32) (lists : UInt64 → List (List WinEntry)) (file : Bytes) (a : Ask)
    (topics : List (UInt64 × Int)) (old cands : List UInt64) (cap : Nat) (hq : 0 ≤ a.limit)
    (hl : dbLookup now lists file a.cutoff a.limit topics old = some cands) (hcap : cands.length ≤ cap)
    (hp : ∀ c ∈ cands, candStep v a.contract a.cutoff c ≠ .panic)
    (hfit : (cands.length : Int) ≤ a.limit ∨
      a.limit + (cands.filter fun c => candStep v a.contract a.cutoff c = .invalid).length ≤ cands.length) :
    dbGet v now lists file a topics old cap ≠ .panic := by
  have hlen : (sortDesc cands).length = cands.length := (sortDesc_perm cands).length_eq
  have hp' : ∀ c ∈ sortDesc cands, candStep v a.contract a.cutoff c ≠ .panic := fun c hc =>
    hp c ((sortDesc_perm cands).subset hc)
  have hinv : invalids (candStep v a.contract a.cutoff) (sortDesc cands) =
      (cands.filter fun c => candStep v a.contract a.cutoff c = .invalid).length := by
    rw [invalids, ← List.countP_eq_length_filter]; exact (sortDesc_perm cands).countP_eq _
  unfold dbGet
  rw [hl]
  dsimp only
  unfold getItems
  split
  · simp
  · rcases Int.lt_or_le (cands.length : Int) a.limit with hlt | hge
    · -- one page holds all candidates
      rw [hlen, if_pos hlt, getLoop, if_neg (by omega)]
      have hw : ∀ c ∈ ((sortDesc cands ++ List.replicate (cap - (sortDesc cands).length) 0).take (cands.length : Int).toNat).drop
          (0 : Int).toNat, candStep v a.contract a.cutoff c ≠ .panic := by
        intro c hc
        have := List.mem_of_mem_drop hc
        rw [List.take_append_of_le_length (by omega)] at this
        exact hp' c (List.mem_of_mem_take this)
      have hnp := getPage_no_panic _ _ hw [] 0
      rcases getPage_spec (candStep v a.contract a.cutoff) _ [] 0 with hpg | ⟨d, r, hd, hpg⟩ | hpg
      · exact absurd hpg hnp
      · rw [hpg]; simp
      · rw [hpg]
        dsimp only
        rw [if_pos (.inr (.inr (by rw [hlen])))]
        simp
    · rw [hlen, if_neg (by omega)]
      rcases hfit with hfit | hfit
      · -- exactly one page
        have heq : a.limit = cands.length := by omega
        rw [getLoop, if_neg (by omega)]
        have hw : ∀ c ∈ ((sortDesc cands ++ List.replicate (cap - (sortDesc cands).length) 0).take a.limit.toNat).drop
            (0 : Int).toNat, candStep v a.contract a.cutoff c ≠ .panic := by
          intro c hc
          have := List.mem_of_mem_drop hc
          rw [List.take_append_of_le_length (by omega)] at this
          exact hp' c (List.mem_of_mem_take this)
        have hnp := getPage_no_panic _ _ hw [] 0
        rcases getPage_spec (candStep v a.contract a.cutoff) _ [] 0 with hpg | ⟨d, r, hd, hpg⟩ | hpg
        · exact absurd hpg hnp
        · rw [hpg]; simp
        · rw [hpg]
          dsimp only
          rw [if_pos (.inr (.inr (by rw [hlen, heq])))]
          simp
      · exact getLoop_no_panic _ _ (by omega) _ hp' (by omega) _ _ _ _ (by omega) (by omega) (by omega) (by omega)

/-- C23. A message whose window entry has expired is not returned: every item a Get with a new query returns belongs to a window
entry, of one of the topics asked for, in memory or on file, that has not expired. Partial: a query that was used before keeps the
candidates it found then, `C23_reused_query_violated`. -/
theorem C23_no_expired_partial (v : View) (now : UInt32) (lists : UInt64 → List (List WinEntry)) (file : Bytes) (a : Ask)
    (topics : List (UInt64 × Int)) (cap : Nat) (hq : 0 ≤ a.limit) (x : Bytes)
    (hx : x ∈ (dbGet v now lists file a topics [] cap).items) :
    ∃ e : WinEntry, (e.expiresAt = 0 ∨ now < e.expiresAt) ∧ candStep v a.contract a.cutoff e.seq = .item x ∧
      ∃ t ∈ topics, (∃ es ∈ lists t.1, e ∈ es) ∨ OnFile file t.1 e := by
  obtain ⟨cands, h1, s, hs, h2⟩ := item_from hq hx
  rcases mem_dbLookup topics h1 hs with h3 | ⟨e, rfl, h4, h5⟩
  · simp at h3
  · refine ⟨e, ?_, h2, h5⟩
    unfold WinEntry.isExpired at h4
    by_cases h0 : e.expiresAt = 0
    · exact .inl h0
    · right
      simp [h0] at h4
      exact h4

/-- C24. Every message returned by a query with a cutoff was created at or after it, according to the time in its id. -/
theorem C24_get_not_older (v : View) (now : UInt32) (lists : UInt64 → List (List WinEntry)) (file : Bytes) (a : Ask)
    (topics : List (UInt64 × Int)) (old : List UInt64) (cap : Nat) (hq : 0 ≤ a.limit) (hc : 0 < a.cutoff) (x : Bytes)
    (hx : x ∈ (dbGet v now lists file a topics old cap).items) :
    ∃ s id val t, fetch v s = .ok id val ∧ uidTime id = some t ∧ a.cutoff ≤ t ∧ candStep v a.contract a.cutoff s = .item x := by
  obtain ⟨_, _, s, _, h⟩ := item_from hq hx
  obtain ⟨_, id, val, h1, h2, _⟩ := candStep_item h
  unfold evalPrefix at h2
  simp only [Option.bind_eq_bind, Option.bind_eq_some_iff] at h2
  obtain ⟨c, _, h2⟩ := h2
  rw [if_pos hc] at h2
  simp only [Option.bind_eq_some_iff] at h2
  obtain ⟨t, ht, h2⟩ := h2
  simp at h2
  exact ⟨s, id, val, t, h1, ht, h2.1, h⟩

/-! ## Witnesses -/

/-- The record of an unsynced message without topic bytes: created at `t`, with a one byte payload. -/
def memRecord (t : Int) (seq : UInt64) : Bytes :=
  (EntryHdr.mk seq 0 1 0 77).marshal ++ ((setContract (newID t seq) masterContract).take 8 ++ [0, UInt8.ofNat seq.toNat])

/-- A view in which every message is in memory, uncompressed; message 12 and later ones were created at 1700000000, earlier ones at
1600000000. -/
def memView : View where
  mem := fun s => some (memRecord (if 12 ≤ s then 1700000000 else 1600000000) s)
  index := []
  data := []
  decrypt := some
  decode := some

/-- A block of the topic 77 with entries 1, 2, 3, of which 3 expired at 5. -/
def expiredBlock : WinBlock := ⟨77, [⟨1, 0⟩, ⟨2, 0⟩, ⟨3, 5⟩] ++ List.replicate 332 ⟨0, 0⟩, 0, 0, 3⟩

/-- C21 without the restriction is violated: with one expired message among the newest two of three, a query with limit 2 returns
message 2 twice. -/
theorem C21_repeats_violated :
    dbGet memView 10 (fun _ => []) expiredBlock.marshal ⟨masterContract, 0, 2⟩ [(77, 0)] [] 4 = .ok [[2], [2]] := by
  decide +kernel

/-- C21: a query object that is used twice returns every message twice, since the candidates of the first Get are kept. -/
theorem C21_reused_query_violated :
    dbGet memView 10 (fun _ => [[⟨1, 0⟩, ⟨2, 0⟩]]) [] ⟨masterContract, 0, 10⟩ [(77, 0)] [] 2 = .ok [[2], [1]] ∧
    dbGet memView 10 (fun _ => [[⟨1, 0⟩, ⟨2, 0⟩]]) [] ⟨masterContract, 0, 10⟩ [(77, 0)] [2, 1] 4 = .ok [[2], [2], [1], [1]] := by
  decide +kernel

/-- C23 without the restriction is violated: message 1, which expires at 20, is found by a Get at 10; the same query at 30 finds
nothing but still returns the message, which has expired. A new query at 30 returns nothing. -/
theorem C23_reused_query_violated :
    dbLookup 10 (fun _ => [[⟨1, 20⟩]]) [] 0 10 [(77, 0)] [] = some [1] ∧
    dbLookup 30 (fun _ => [[⟨1, 20⟩]]) [] 0 10 [(77, 0)] [1] = some [1] ∧
    dbGet memView 30 (fun _ => [[⟨1, 20⟩]]) [] ⟨masterContract, 0, 10⟩ [(77, 0)] [1] 1 = .ok [[1]] ∧
    dbGet memView 30 (fun _ => [[⟨1, 20⟩]]) [] ⟨masterContract, 0, 10⟩ [(77, 0)] [] 1 = .ok [] := by
  decide +kernel

/-- C22 without the restriction is violated: three time blocks of four unsynced messages, a query with limit 4 for the messages since
1650000000, of which there is one. The lookup yields eight candidates (in a slice of capacity 8), seven are too old, and the third
page is cut from 7 to 10. -/
theorem C22_overrun_violated :
    dbGet memView 10 (fun _ => [[⟨1, 0⟩, ⟨2, 0⟩, ⟨3, 0⟩, ⟨4, 0⟩], [⟨5, 0⟩, ⟨6, 0⟩, ⟨7, 0⟩, ⟨8, 0⟩], [⟨9, 0⟩, ⟨10, 0⟩, ⟨11, 0⟩, ⟨12, 0⟩]])
      [] ⟨masterContract, 1650000000, 4⟩ [(77, 0)] [] 8 = .panic := by
  decide +kernel

/-- The hypotheses of the theorems above hold of a Get that returns two of three messages, one of which is too old. -/
example : dbGet memView 10 (fun _ => [[⟨3, 0⟩, ⟨12, 0⟩, ⟨13, 20⟩]]) [] ⟨masterContract, 1650000000, 3⟩ [(77, 0)] [] 4 =
      .ok [[13], [12]] ∧
    dbLookup 10 (fun _ => [[⟨3, 0⟩, ⟨12, 0⟩, ⟨13, 20⟩]]) [] 1650000000 3 [(77, 0)] [] = some [13, 12, 3] ∧
    ∀ c ∈ ([13, 12, 3] : List UInt64), candStep memView masterContract 1650000000 c ≠ .panic := by
  decide +kernel

end Verif
