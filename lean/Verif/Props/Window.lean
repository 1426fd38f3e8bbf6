import Verif.Model.Reopen

/-!
# C25, C32, C33: what a topic reaches
-/

namespace Verif

/-- The topic synced first of all. -/
def firstTopic (led : List (UInt64 × List WinEntry)) : Option UInt64 := led.head?.map (·.1)

theorem readWindowBlock_empty (file : Bytes) (off : Nat) (h : file.length < off + 4096) : readWindowBlock file off = none := by
  rw [readWindowBlock, readAt, if_pos (by omega), slice?, if_neg]
  · rfl
  · have h1 : blockSize = 4096 := rfl
    omega

/-- Following the blocks of a topic other than the first one. -/
theorem lookupChain_synced {s : WinState} {led : List (UInt64 × List WinEntry)} (H : WinHist s led) (h : UInt64)
    (hf : firstTopic led ≠ some h) (now : UInt32) (hl : ∀ e ∈ syncedFor led h, e.isExpired now = false) {cutoff : Int} (hc : cutoff ≤ 0)
    (acc : List WinEntry) (limit : Int) (ha : (acc.length : Int) ≤ limit) :
    lookupChain now s.file h cutoff (s.file.length / blockSize + 1) (s.offs h) acc limit =
      some ((acc ++ (syncedFor led h).reverse).take limit.toNat) := by
  obtain ⟨n, B, ks, d⟩ := H.onDisk
  obtain ⟨hz, hcont⟩ := d.all h hf
  have hdiv : s.file.length / blockSize = n := by rw [d.len]; show 4096 * n / 4096 = n; omega
  rw [hdiv, d.offs h]
  cases hk : ks h with
  | nil =>
    have hnil : syncedFor led h = [] := by rw [← hcont, hk]; rfl
    rw [hnil, List.reverse_nil, List.append_nil, List.take_of_length_le (by omega), lookupChain]
    simp only [headOff]
    by_cases h0 : n = 0
    · rw [show (0 : Int) = ((0 : Nat) : Int) from rfl, readWindowBlock_empty s.file 0 (by rw [d.len]; omega)]
    · have hr := d.read 0 (by omega)
      simp only [Int.natCast_zero, Int.mul_zero] at hr
      rw [hr]
      cases hh : led.head? with
      | none => exact absurd (d.empty (by simpa using hh)) h0
      | some p =>
        have := d.zero p hh
        have hne : (B 0).topicHash ≠ h := by
          rw [this]; intro hc; exact hf (by simp [firstTopic, hh, hc])
        simp only [lookupBlock, ne_eq, hne, not_false_eq_true, if_true]
  | cons k r =>
    have hch := d.chain h
    have hkn := d.known h
    rw [hk] at hch hkn
    rw [← hcont, hk] at hl
    rw [← hcont, hk]
    have := hch.length_le
    have h1 := hkn k (by simp)
    exact lookupChain_eq d hc r k (n + 1) acc limit hch hkn hl (by omega) ha

theorem windowLookup_nil (now : UInt32) (file : Bytes) (h : UInt64) (off cutoff : Int) (limit : Nat) :
    windowLookup now [] file h off cutoff limit =
      if limit = 0 then some [] else lookupChain now file h cutoff (file.length / blockSize + 1) off [] limit := by
  unfold windowLookup
  show (if ((([] : List WinEntry).length : Nat) : Int) ≥ limit then some [] else _) = _
  by_cases h0 : limit = 0
  · rw [if_pos h0, if_pos (by simp [h0])]
  · rw [if_neg h0, if_neg (by simp; omega)]; rfl

/-- C32 for every topic but the one synced first: following the topic's window blocks finds everything synced for it, newest first. -/
theorem C32_all_reachable_partial {s : WinState} {led : List (UInt64 × List WinEntry)} (H : WinHist s led) (h : UInt64)
    (hf : firstTopic led ≠ some h) (now : UInt32) (hl : ∀ e ∈ syncedFor led h, e.isExpired now = false) (limit : Nat) :
    windowLookup now [] s.file h (s.offs h) 0 limit = some ((syncedFor led h).reverse.take limit) := by
  rw [windowLookup_nil]
  by_cases h0 : limit = 0
  · subst h0; simp
  · rw [if_neg h0, lookupChain_synced H h hf now hl (Int.le_refl 0) [] limit (by simp)]
    simp

/-- C32 is violated: the first topic ever synced gets the window block at offset 0, which the trie and the block chain take for "no
block". After its second sync its earlier messages are no longer reached. -/
theorem C32_first_topic_violated : ∃ s led, WinHist s led ∧ syncedFor led 7 = [⟨1, 0⟩, ⟨2, 0⟩] ∧
    windowLookup 100 [] s.file 7 (s.offs 7) 0 10 = some [⟨2, 0⟩] := by
  have hrun : (do
      let s ← WinState.fresh.round 5 [(7, [⟨1, 0⟩])]
      let s ← { s with w := newWindowWriter s.file }.round 5 [(7, [⟨2, 0⟩])]
      windowLookup 100 [] s.file 7 (s.offs 7) 0 10) = some [⟨2, 0⟩] := by decide +kernel
  simp only [Option.bind_eq_bind, Option.bind_eq_some_iff] at hrun
  obtain ⟨s1, h1, s2, h2, h3⟩ := hrun
  have hb : (WinState.fresh.round 5 [(7, [⟨1, 0⟩])]).map (fun s => decide (s.w.windowIdx ≤ 524286)) = some true := by decide +kernel
  have hb2 : (do
      let s ← WinState.fresh.round 5 [(7, [⟨1, 0⟩])]
      let s ← { s with w := newWindowWriter s.file }.round 5 [(7, [⟨2, 0⟩])]
      pure (decide (s.w.windowIdx ≤ 524286))) = some true := by decide +kernel
  rw [h1] at hb hb2
  simp only [Option.bind_eq_bind, Option.bind_some, h2] at hb2
  simp only [Option.map_some, Option.some.injEq, decide_eq_true_eq, Option.pure_def] at hb hb2
  exact ⟨s2, _, .round (.start (.round .fresh (by decide) (by decide) h1 hb)) (by decide) (by decide) h2 hb2, by decide, h3⟩

/-- Histories with several topics and syncs exist; the theorems above apply to topics 8 and 9 here. -/
example : ∃ s led, WinHist s led ∧ firstTopic led = some 7 ∧ syncedFor led 8 = [⟨2, 0⟩, ⟨4, 0⟩] ∧ syncedFor led 9 = [⟨3, 0⟩] := by
  obtain ⟨s1, _, H1, _, hw⟩ := WinHist.fresh.more (now := 5) (by decide) [(7, [⟨1, 0⟩]), (8, [⟨2, 0⟩])] (by decide) (by decide)
  have hw' : (newWindowWriter s1.file).windowIdx ≤ 4 := hw
  obtain ⟨s2, _, H2, _⟩ := H1.start.more (now := 6) (by decide) [(9, [⟨3, 0⟩]), (8, [⟨4, 0⟩])] (by decide) (by
    show (newWindowWriter s1.file).windowIdx + 4 ≤ 524286
    omega)
  exact ⟨s2, _, H2, rfl, by decide, by decide⟩

/-- What is found for a topic was synced for it, in order, and is a tail of what was synced; never entries of another topic. -/
theorem C32_reached_is_suffix {s : WinState} {led : List (UInt64 × List WinEntry)} (H : WinHist s led) (h : UInt64)
    (hs : syncedFor led h ≠ []) (now : UInt32) (hl : ∀ e ∈ syncedFor led h, e.isExpired now = false) (limit : Nat)
    (hlim : (syncedFor led h).length ≤ limit) :
    ∃ t, t ≠ [] ∧ t <:+ syncedFor led h ∧ windowLookup now [] s.file h (s.offs h) 0 limit = some t.reverse := by
  obtain ⟨n, B, ks, d⟩ := H.onDisk
  have hdiv : s.file.length / blockSize = n := by rw [d.len]; show 4096 * n / 4096 = n; omega
  have hpos : 0 < (syncedFor led h).length := List.length_pos_iff.2 hs
  rw [windowLookup_nil, if_neg (by omega), hdiv, d.offs h]
  have hne := d.has h hs
  have hcne := d.some h hne
  cases hk : ks h with
  | nil => exact absurd hk hne
  | cons k r =>
    have hch := d.chain h
    have hkn := d.known h
    have hsuf := d.suffix trivial h
    rw [hk] at hch hkn hsuf hcne
    have := hch.length_le
    have h1 := hkn k (by simp)
    refine ⟨content B (k :: r), hcne, hsuf, ?_⟩
    have e := lookupChain_eq (now := now) d (cutoff := 0) (Int.le_refl 0) r k (n + 1) [] limit hch hkn
      (fun e he => hl e (hsuf.subset he)) (by omega) (by simp)
    simp only [headOff]
    rw [e, List.nil_append, List.take_of_length_le]
    have := hsuf.length_le
    rw [List.length_reverse]; show _ ≤ limit; omega

/-! ## C25 -/

theorem ilookupLoop_length {now : UInt32} {limit : Int} (lists : List (List WinEntry))
    (hl : ∀ es ∈ lists, ∀ e ∈ es, e.isExpired now = false) : ∀ l : Int, 0 ≤ l → l ≤ limit →
    min (limit - l) lists.flatten.length ≤ (ilookupLoop now limit lists l).length := by
  induction lists with
  | nil => intro l _ _; simp [ilookupLoop]
  | cons es rest ih =>
    intro l h0 h1
    have ih := ih (fun x hx => hl x (List.mem_cons_of_mem _ hx))
    rw [ilookupLoop, List.flatten_cons, List.length_append]
    by_cases he : es.length > 0
    · rw [if_pos he]
      dsimp only
      generalize hm : (if (es.length : Int) < limit - l then (es.length : Int) else limit - l) = m
      have hm' : m = min (es.length : Int) (limit - l) := by rw [← hm]; split <;> omega
      have := ih m (by omega) (by omega)
      rw [List.length_append, live_eq (fun e he => hl es (by simp) e (List.mem_reverse.1 (List.mem_of_mem_take he))),
        List.length_take, List.length_reverse]
      omega
    · rw [if_neg he]
      have := ih l h0 h1
      omega

/-- C25 when nothing has expired: a lookup finds at least as many candidates as the limit and the topic's messages allow, whether
they are in memory (`lists`, any number of time blocks in any order) or synced. -/
theorem C25_nothing_hidden_partial {s : WinState} {led : List (UInt64 × List WinEntry)} (H : WinHist s led) (h : UInt64)
    (hf : firstTopic led ≠ some h) (now : UInt32) (lists : List (List WinEntry))
    (hl : ∀ e ∈ lists.flatten ++ syncedFor led h, e.isExpired now = false) (limit : Nat) :
    ∃ r, windowLookup now lists s.file h (s.offs h) 0 limit = some r ∧
      min limit (lists.flatten ++ syncedFor led h).length ≤ r.length := by
  have h1 := ilookupLoop_length (now := now) (limit := limit) lists
    (fun es hes e he => hl e (List.mem_append_left _ (List.mem_flatten.2 ⟨es, hes, he⟩))) 0 (Int.le_refl 0) (by omega)
  have hacc : ilookup now lists (limit : Int) = ilookupLoop now limit lists 0 := rfl
  unfold windowLookup
  dsimp only
  rw [hacc]
  by_cases hg : ((ilookupLoop now (limit : Int) lists 0).length : Int) ≥ limit
  · rw [if_pos hg]
    exact ⟨_, rfl, by omega⟩
  · rw [if_neg hg, lookupChain_synced H h hf now (fun e he => hl e (List.mem_append_right _ he)) (Int.le_refl 0) _ limit (by omega)]
    refine ⟨_, rfl, ?_⟩
    simp only [List.length_take, List.length_append, List.length_reverse, Int.toNat_natCast]
    omega

/-- C25 is violated: limit 1, an older live message and a newer expired one, both unsynced: nothing is found. -/
theorem C25_expired_hides_violated :
    WinEntry.isExpired 100 ⟨1, 0⟩ = false ∧ windowLookup 100 [[⟨1, 0⟩, ⟨2, 50⟩]] [] 7 0 0 1 = some [] := by
  decide +kernel

example : ∀ e ∈ ([[⟨4, 0⟩], [⟨5, 200⟩]] : List (List WinEntry)).flatten ++ syncedFor [(7, [⟨1, 0⟩]), (8, [⟨2, 0⟩])] 8,
    e.isExpired 100 = false := by decide

/-! ## C33 -/

/-- C33, exactly: after reopening, a topic other than the one synced first reaches the first 335 entries synced for it, provided the
record of its first entry carries the topic and the first records of all topics can be read. -/
theorem C33_reopen_first_335 {s : WinState} {led : List (UInt64 × List WinEntry)} (H : WinHist s led) (h : UInt64)
    (hf : firstTopic led ≠ some h) (named : UInt64 → Option Bool) (hr : ∀ q, named q ≠ none)
    {e0 : WinEntry} (h0 : (syncedFor led h).head? = some e0) (hn : named e0.seq = some true) :
    ∃ off, (loadTrie named s.file).lookup h = some off ∧
      ∀ (now : UInt32), (∀ e ∈ syncedFor led h, e.isExpired now = false) → ∀ limit : Nat,
        windowLookup now [] s.file h off 0 limit = some (((syncedFor led h).take 335).reverse.take limit) := by
  obtain ⟨n, B, ks, d⟩ := H.onDisk
  have hsn : syncedFor led h ≠ [] := by intro hc; rw [hc] at h0; simp at h0
  have hne := d.has h hsn
  have hb := d.bound
  obtain ⟨hz, hcont⟩ := d.all h hf
  cases hk : ks h with
  | nil => exact absurd hk hne
  | cons k r =>
    have hch := d.chain h
    have hkn := d.known h
    rw [hk] at hch hkn hcont
    obtain ⟨l, h1, h2, h3, h4, h5, z, h6⟩ := IsChain.last r hch (fun j hj => by have := hkn j hj; omega)
    have hln := hkn l h1
    have hlok := d.good l
    have h335 : entriesPerWindowBlock = 335 := rfl
    have hulen : (used (B l)).length = (B l).entryIdx.toNat := by
      rw [used, List.length_take, hlok.1]; have := hlok.2.2; omega
    -- the oldest block holds the first 335 entries
    have htake : (syncedFor led h).take 335 = used (B l) := by
      rw [← hcont, h6]
      rcases h5 with ⟨rfl, rfl⟩ | h5
      · have hz0 : z = [] := by
          have : content B [l] = used (B l) := by simp [content]
          rw [this] at h6
          simpa using h6
        rw [hz0, List.append_nil, List.take_of_length_le]
        rw [hulen]; exact hlok.2.2
      · rw [List.take_append_of_le_length (by rw [hulen]; omega), List.take_of_length_le (by rw [hulen]; omega)]
    have hpos : 1 ≤ (B l).entryIdx.toNat := by
      have h7 : 0 < (syncedFor led h).length := List.length_pos_iff.2 hsn
      have h8 : ((syncedFor led h).take 335).length = (B l).entryIdx.toNat := by rw [htake, hulen]
      rw [List.length_take] at h8
      omega
    have hread : ∀ k, k < n → readWindowBlock s.file (winOff k) = some (B k) := by
      intro k hk; rw [winOff_eq k (by omega)]; exact d.read k hk
    have hend : readWindowBlock s.file (winOff n) = none := by
      rw [winOff_eq n (by omega), show (4096 * (n : Int)) = ((4096 * n : Nat) : Int) by omega]
      exact readWindowBlock_empty _ _ (by rw [d.len]; omega)
    have hdiv : s.file.length / blockSize = n := by rw [d.len]; show 4096 * n / 4096 = n; omega
    have hiter : blockIterator s.file = iterBlocks s.file (List.range' 0 (n + 1)) := by
      rw [blockIterator, if_pos (by rw [d.len]; omega), hdiv, List.range_eq_range']
    have hmem := mem_iterBlocks hread hend (n + 1) 0 (by omega)
    have hhead : ((B l).entries.headD .zero).seq = e0.seq := by
      have h9 : (syncedFor led h).head? = (used (B l)).head? := by
        rw [← htake, List.head?_take, if_neg (by omega)]
      rw [h0, used, List.head?_take, if_neg (by omega)] at h9
      rw [List.headD_eq_head?_getD, ← h9]
      rfl
    have hfound : (loadTrie named s.file).lookup h = some (winOff l) := by
      rw [loadTrie, hiter]
      refine loadOffsets_found _ (fun p _ => hr p.1) ?_ ?_ [] rfl
      · refine ⟨_, (hmem _).2 ⟨l, by omega, hln, ?_, h2, rfl⟩, h4.1, ?_⟩
        · intro hc; rw [hc] at hpos; exact absurd hpos (by decide)
        · dsimp only; rw [hhead]; exact hn
      · intro p hp hph
        obtain ⟨j, _, hj, he, hnx, rfl⟩ := (hmem p).1 hp
        dsimp only at hph ⊢
        have hje : 1 ≤ (B j).entryIdx.toNat := by
          rcases Nat.eq_zero_or_pos (B j).entryIdx.toNat with hc | hc
          · exact absurd (UInt16.toNat_inj.1 hc) he
          · exact hc
        rcases d.owned j hje with ho | ho
        · rw [hph, hk] at ho
          rw [h3 j ho hnx]
        · rw [hph] at ho
          exact absurd ho hf
    refine ⟨winOff l, hfound, fun now hl limit => ?_⟩
    rw [winOff_eq l (by omega), windowLookup_nil, htake]
    by_cases hlim : limit = 0
    · subst hlim; simp
    · rw [if_neg hlim, hdiv]
      have hc1 : content B [l] = used (B l) := by simp [content]
      have e := lookupChain_eq (now := now) d (cutoff := 0) (Int.le_refl 0) [] l (n + 1) [] limit h4
        (fun j hj => by rw [List.mem_singleton.1 hj]; exact hln)
        (fun e he => by
          rw [hc1, ← htake] at he
          exact hl e (List.mem_of_mem_take he)) (by simp) (by simp)
      rw [e, hc1]
      rfl

example : (syncedFor [(7, [⟨1, 0⟩]), (8, [⟨2, 0⟩, ⟨3, 0⟩]), (8, [⟨4, 0⟩])] 8).head? = some ⟨2, 0⟩ ∧
    firstTopic [(7, [⟨1, 0⟩]), (8, [⟨2, 0⟩, ⟨3, 0⟩]), (8, [⟨4, 0⟩])] ≠ some 8 := by decide

/-- C33 for topics with at most 335 messages: the same messages are found as before closing. -/
theorem C33_reopen_same_partial {s : WinState} {led : List (UInt64 × List WinEntry)} (H : WinHist s led) (h : UInt64)
    (hf : firstTopic led ≠ some h) (named : UInt64 → Option Bool) (hr : ∀ q, named q ≠ none)
    {e0 : WinEntry} (h0 : (syncedFor led h).head? = some e0) (hn : named e0.seq = some true) (hlen : (syncedFor led h).length ≤ 335) :
    ∃ off, (loadTrie named s.file).lookup h = some off ∧
      ∀ (now : UInt32), (∀ e ∈ syncedFor led h, e.isExpired now = false) → ∀ limit : Nat,
        windowLookup now [] s.file h off 0 limit = windowLookup now [] s.file h (s.offs h) 0 limit := by
  obtain ⟨off, h1, h2⟩ := C33_reopen_first_335 H h hf named hr h0 hn
  refine ⟨off, h1, fun now hl limit => ?_⟩
  rw [h2 now hl limit, C32_all_reachable_partial H h hf now hl limit, List.take_of_length_le hlen]

/-- C33 is violated: a topic with 336 synced messages reaches all of them before closing and only the oldest 335 after reopening. -/
theorem C33_newest_lost_violated : ∃ s led, WinHist s led ∧ (syncedFor led 8).length = 336 ∧
    windowLookup 100 [] s.file 8 (s.offs 8) 0 1 = some [⟨336, 0⟩] ∧
    ∃ off, (loadTrie (fun _ => some true) s.file).lookup 8 = some off ∧
      windowLookup 100 [] s.file 8 off 0 1 = some [⟨335, 0⟩] ∧
      ∀ (limit : Nat) r, windowLookup 100 [] s.file 8 off 0 limit = some r → ⟨336, 0⟩ ∉ r := by
  let es : List WinEntry := (List.range' 1 336).map fun n => ⟨UInt64.ofNat n, 0⟩
  have hes : ∀ e ∈ es, e.seq ≠ 0 ∧ e.isExpired 100 = false := by decide +kernel
  obtain ⟨s, _, H, _⟩ := WinHist.fresh.more (now := 5) (by decide) [(7, [⟨1, 0⟩]), (8, es)] (by
    intro p hp
    simp only [List.mem_cons, List.not_mem_nil, or_false] at hp
    rcases hp with rfl | rfl
    · decide
    · exact ⟨by decide, fun e he => (hes e he).1⟩) (by decide +kernel)
  have hs : syncedFor ([] ++ [(7, [⟨1, 0⟩]), (8, es)]) 8 = es := by
    simp [syncedFor]
  have hf : firstTopic ([] ++ [(7, [⟨1, 0⟩]), (8, es)]) ≠ some 8 := by
    show (some 7 : Option UInt64) ≠ some 8; decide
  refine ⟨s, _, H, by rw [hs, List.length_map, List.length_range'], ?_, ?_⟩
  · have := C32_all_reachable_partial H 8 hf 100 (by rw [hs]; exact fun e he => (hes e he).2) 1
    rw [hs] at this
    rw [show (1 : Int) = ((1 : Nat) : Int) from rfl, this]
    decide +kernel
  · obtain ⟨off, h1, h2⟩ := C33_reopen_first_335 H 8 hf (fun _ => some true) (by simp) (e0 := ⟨1, 0⟩) (by rw [hs]; decide +kernel) rfl
    have h3 := h2 100 (by rw [hs]; exact fun e he => (hes e he).2)
    rw [hs] at h3
    refine ⟨off, h1, ?_, ?_⟩
    · rw [show (1 : Int) = ((1 : Nat) : Int) from rfl, h3 1]
      decide +kernel
    · intro limit r hr hm
      rw [h3 limit] at hr
      cases hr
      have h4 := List.mem_reverse.1 (List.mem_of_mem_take hm)
      exact absurd h4 (by decide +kernel)

end Verif
