import Verif.Model.Db
import Verif.Model.WindowHist
import Verif.Model.GetLemmas

/-!
# Lookups that reach no limit

What the time windows, the lookup of a query and the pagination loop yield when the limit is at least the number of entries.
-/

namespace Verif

/-- The entries in memory: all live ones. -/
theorem ilookupLoop_all (now : UInt32) (limit : Int) (lists : List (List WinEntry)) : ∀ l : Int, 0 ≤ l →
    l + (lists.map List.length).sum ≤ limit → ilookupLoop now limit lists l = lists.flatMap fun es => live now es.reverse := by
  induction lists with
  | nil => intro l _ _; rfl
  | cons es rest ih =>
    intro l h0 hl
    simp only [List.map_cons, List.sum_cons] at hl
    rw [ilookupLoop, List.flatMap_cons]
    by_cases he : es.length > 0
    · rw [if_pos he]
      have hx : (if (es.length : Int) < limit - l then (es.length : Int) else limit - l) = es.length := by
        split <;> omega
      simp only [hx]
      rw [ih _ (by omega) (by omega), List.take_of_length_le (by simp)]
    · rw [if_neg he, ih l h0 (by omega)]
      have : es = [] := List.length_eq_zero_iff.mp (by omega)
      simp [this, live]

theorem length_live_le (now : UInt32) (es : List WinEntry) : (live now es).length ≤ es.length := by
  rw [live]; exact List.length_filter_le _ _

theorem length_live_flat (now : UInt32) (lists : List (List WinEntry)) :
    (lists.flatMap fun es => live now es.reverse).length ≤ (lists.map List.length).sum := by
  induction lists with
  | nil => simp
  | cons es rest ih =>
    have := length_live_le now es.reverse
    simp only [List.flatMap_cons, List.length_append, List.map_cons, List.sum_cons, List.length_reverse] at this ⊢
    omega

theorem live_append (now : UInt32) (a b : List WinEntry) : live now (a ++ b) = live now a ++ live now b := by simp [live]

/-- One block, below the limit. -/
theorem lookupBlock_live {now : UInt32} {hash : UInt64} {cutoff : Int} {b : WinBlock} (hb : BlockOK b) (hh : b.topicHash = hash)
    (hc : cutoff ≤ 0) {acc : List WinEntry} {limit : Int} (ha : (acc.length : Int) + (used b).length ≤ limit) :
    lookupBlock now hash cutoff b acc limit = .next (acc ++ live now (used b).reverse) limit := by
  obtain ⟨h1, h2, h3⟩ := hb
  have hcut : b.cutoff cutoff = false := by
    simp only [WinBlock.cutoff, Bool.and_eq_false_iff, decide_eq_false_iff_not]
    right; omega
  have h335 : entriesPerWindowBlock = 335 := rfl
  have hlen : (used b).length = b.entryIdx.toNat := by rw [used, List.length_take, h1]; omega
  unfold lookupBlock
  simp only [hh, ne_eq, not_true_eq_false, if_false]
  rw [if_neg (by omega), if_neg (by omega), hcut]
  rfl

/-- Following a chain, below the limit: the live entries, newest first. -/
theorem lookupChain_live {sf : Prop} {now : UInt32} {file : Bytes} {led : List (UInt64 × List WinEntry)} {offs : UInt64 → Int} {n : Nat}
    {B : Nat → WinBlock} {ks : UInt64 → List Nat} (d : OnDisk sf file led offs n B ks) {hash : UInt64} {cutoff : Int} (hc : cutoff ≤ 0)
    (r : List Nat) : ∀ (k : Nat) (fuel : Nat) (acc : List WinEntry) (limit : Int), IsChain B hash (k :: r) → (∀ j ∈ k :: r, j < n) →
      r.length < fuel → (acc.length : Int) + (content B (k :: r)).length ≤ limit →
      lookupChain now file hash cutoff fuel (4096 * k) acc limit = .some (acc ++ live now (content B (k :: r)).reverse) := by
  induction r with
  | nil =>
    intro k fuel acc limit c hk hf ha
    obtain ⟨fuel, rfl⟩ : ∃ m, fuel = m + 1 := ⟨fuel - 1, by simp at hf; omega⟩
    have hcont : content B [k] = used (B k) := by simp [content]
    rw [hcont] at ha ⊢
    rw [lookupChain, d.read k (hk k (by simp))]
    dsimp only
    rw [lookupBlock_live (d.good k) c.1 hc ha]
    dsimp only
    rw [if_pos c.2.2]
  | cons j r ih =>
    intro k fuel acc limit c hk hf ha
    obtain ⟨fuel, rfl⟩ : ∃ m, fuel = m + 1 := ⟨fuel - 1, by simp at hf; omega⟩
    have hcont : content B (k :: j :: r) = content B (j :: r) ++ used (B k) := content_cons _ _ _
    rw [hcont] at ha ⊢
    rw [List.length_append] at ha
    rw [lookupChain, d.read k (hk k (by simp))]
    dsimp only
    rw [lookupBlock_live (d.good k) c.1 hc (by omega)]
    have hj : j < n := hk j (by simp)
    have hjn := d.bound
    have hnext : (B k).next = Int64.ofInt (4096 * j) := c.2.2.2.1
    have hjp : 0 < j := c.2.2.2.2.1
    have hval : (B k).next.toInt = 4096 * j := by
      rw [hnext, Int64.toInt_ofInt_of_le (by omega) (by omega)]
    dsimp only
    have hne : (B k).next ≠ 0 := by
      intro h0
      rw [h0] at hval
      have : (0 : Int64).toInt = 0 := rfl
      omega
    have hll := length_live_le now (used (B k)).reverse
    rw [List.length_reverse] at hll
    rw [if_neg hne, hval, ih j fuel _ limit c.tail (fun i hi => hk i (List.mem_cons_of_mem _ hi)) (by simp at hf ⊢; omega) (by
        simp only [List.length_append]; omega)]
    rw [List.reverse_append, live_append, List.append_assoc]

/-- The lookup of one topic, below the limit: all its live entries, in memory and on file. The topic synced first is left out: its
offset may be the number 0, which means none. -/
theorem windowLookup_all {s : WinState} {led : List (UInt64 × List WinEntry)} (H : WinOK s led) (now : UInt32)
    (lists : List (List WinEntry)) (h : UInt64) (hf : led.head?.map (·.1) ≠ some h) (cutoff limit : Int) (hc : cutoff ≤ 0)
    (hl : ((lists.map List.length).sum : Int) + (syncedFor led h).length ≤ limit) :
    windowLookup now lists s.file h (s.offs h) cutoff limit =
      some ((lists.flatMap fun es => live now es.reverse) ++ live now (syncedFor led h).reverse) := by
  obtain ⟨n, B, ks, d⟩ := H.onDisk
  have hall := d.all h hf
  have hacc := length_live_flat now lists
  have hil : ilookup now lists limit = lists.flatMap fun es => live now es.reverse := by
    rw [ilookup]; exact ilookupLoop_all now limit lists 0 (by omega) (by omega)
  rw [windowLookup]
  simp only [hil]
  by_cases hge : ((lists.flatMap fun es => live now es.reverse).length : Int) ≥ limit
  · rw [if_pos hge]
    have : syncedFor led h = [] := List.length_eq_zero_iff.mp (by omega)
    simp [this, live]
  · rw [if_neg hge, d.offs h]
    cases hk : ks h with
    | nil =>
      have hs : syncedFor led h = [] := by
        by_contra hne
        exact d.has h hne hk
      rw [hs, List.reverse_nil]
      simp only [headOff, live, List.filter_nil, List.append_nil]
      rw [lookupChain]
      cases hr : readWindowBlock s.file 0 with
      | none => rfl
      | some b =>
        dsimp only
        have hb : b.topicHash ≠ h := by
          by_cases hled : led = []
          · have h0 := d.empty hled
            have hlen := d.len
            rw [h0] at hlen
            have : s.file = [] := List.length_eq_zero_iff.mp (by omega)
            rw [this] at hr
            simp [readWindowBlock, readAt, slice?, blockSize] at hr
          · obtain ⟨p, hp⟩ : ∃ p, led.head? = some p := by
              cases led with
              | nil => exact absurd rfl hled
              | cons p l => exact ⟨p, rfl⟩
            have hz := d.zero p hp
            by_cases hn : 0 < n
            · have := d.read 0 hn
              have hr' : readWindowBlock s.file (4096 * (0 : Nat)) = some b := by simpa using hr
              rw [hr'] at this
              simp only [Option.some.injEq] at this
              rw [this, hz]
              rw [hp] at hf
              simpa using hf
            · have hlen := d.len
              have : s.file = [] := List.length_eq_zero_iff.mp (by omega)
              rw [this] at hr
              simp [readWindowBlock, readAt, slice?, blockSize] at hr
        rw [lookupBlock, if_pos hb]
    | cons k r =>
      have hch := d.chain h
      have hkn := d.known h
      rw [hk] at hch hkn
      have hcont := hall.2
      rw [hk] at hcont
      have hlr := hch.length_le
      have hkk := hkn k (by simp)
      have hlen := d.len
      have hbs : blockSize = 4096 := rfl
      simp only [headOff]
      rw [lookupChain_live d hc r k _ _ limit hch hkn (by rw [hlen, hbs]; omega) (by rw [hcont]; omega), hcont]

/-- The lookup of a query, below the limit. -/
theorem dbLookup_all {now : UInt32} {lists : UInt64 → List (List WinEntry)} {file : Bytes} {cutoff limit : Int}
    (R : UInt64 × Int → List WinEntry) (N : UInt64 × Int → Nat) (ts : List (UInt64 × Int))
    (hR : ∀ t ∈ ts, (R t).length ≤ N t ∧ ∀ lim : Int, (N t : Int) ≤ lim →
      windowLookup now (lists t.1) file t.1 t.2 cutoff lim = some (R t)) : ∀ cands : List UInt64,
    (cands.length : Int) + (ts.map N).sum ≤ limit →
    dbLookup now lists file cutoff limit ts cands = some (cands ++ ts.flatMap fun t => (R t).map (·.seq)) := by
  induction ts with
  | nil => intro cands _; simp [dbLookup]
  | cons t ts ih =>
    intro cands hl
    obtain ⟨h, off⟩ := t
    simp only [List.map_cons, List.sum_cons] at hl
    obtain ⟨h1, h2⟩ := hR (h, off) (by simp)
    rw [dbLookup, if_neg (by omega), h2 (limit - cands.length) (by omega)]
    simp only [Option.bind_eq_bind, Option.bind_some]
    rw [ih (fun t ht => hR t (List.mem_cons_of_mem _ ht)) _ (by simp only [List.length_append, List.length_map]; omega)]
    simp [List.flatMap_cons]

/-- One page of a reader whose answers do not depend on its state. -/
theorem getPageS_all {σ : Type} {step : σ → UInt64 → σ × Step} (P : σ → Prop) (f : UInt64 → Step)
    (cs : List UInt64) (hstep : ∀ s, P s → ∀ c ∈ cs, P (step s c).1 ∧ (step s c).2 = f c)
    (hf : ∀ c ∈ cs, f c ≠ .fail ∧ f c ≠ .panic) : ∀ (s : σ) (items : List Bytes) (inv : Nat), P s →
    ∃ s', P s' ∧ getPageS step cs s items inv = (s', .inr (items ++ payloads f cs, inv + invalids f cs)) := by
  induction cs with
  | nil => intro s items inv h; exact ⟨s, h, by simp [getPageS, invalids]⟩
  | cons c cs ih =>
    intro s items inv h
    obtain ⟨h1, h2⟩ := hstep s h c (by simp)
    obtain ⟨h3, h4⟩ := hf c (by simp)
    have ih' := ih (fun s hs c hc => hstep s hs c (List.mem_cons_of_mem _ hc)) (fun c hc => hf c (List.mem_cons_of_mem _ hc))
    have e : step s c = ((step s c).1, f c) := by rw [← h2]
    rw [getPageS]
    rw [e]
    cases hfc : f c with
    | skip =>
      obtain ⟨s', hs', he⟩ := ih' (step s c).1 items inv h1
      exact ⟨s', hs', by simp [he, payloads, invalids, hfc]⟩
    | invalid =>
      obtain ⟨s', hs', he⟩ := ih' (step s c).1 items (inv + 1) h1
      refine ⟨s', hs', ?_⟩
      simp only [he, payloads, invalids, List.filterMap_cons, List.countP_cons, hfc]
      simp; omega
    | item x =>
      obtain ⟨s', hs', he⟩ := ih' (step s c).1 (items ++ [x]) inv h1
      exact ⟨s', hs', by simp [he, payloads, invalids, hfc]⟩
    | fail => exact absurd hfc h3
    | panic => exact absurd hfc h4

/-- A Get whose candidates are no more than the limit and fit their slice: one page, all payloads. -/
theorem getItemsS_all {σ : Type} {step : σ → UInt64 → σ × Step} (P : σ → Prop) (f : UInt64 → Step)
    (cands : List UInt64) (hstep : ∀ s, P s → ∀ c ∈ cands, P (step s c).1 ∧ (step s c).2 = f c)
    (hf : ∀ c ∈ cands, f c ≠ .fail ∧ f c ≠ .panic) (cap : Nat) (q : Int) (hcap : cands.length ≤ cap) (hq : (cands.length : Int) ≤ q)
    (s : σ) (hs : P s) : ∃ s', P s' ∧ getItemsS step cands cap q s = (s', .ok (payloads f cands)) := by
  rw [getItemsS]
  by_cases hc : cands = []
  · subst hc; exact ⟨s, hs, by simp⟩
  · rw [if_neg hc]
    have hl : (if (cands.length : Int) < q then (cands.length : Int) else q) = cands.length := by split <;> omega
    rw [hl, getLoopS, if_neg (by omega)]
    have hp : ((cands ++ List.replicate (cap - cands.length) 0).take (cands.length : Int).toNat).drop (0 : Int).toNat = cands := by
      simp
    rw [hp]
    obtain ⟨s', h1, h2⟩ := getPageS_all P f cands hstep hf s [] 0 hs
    rw [h2]
    exact ⟨s', h1, by simp⟩

end Verif
