import Verif.Model.DbInv

/-!
# Lookups that a limit cuts off

One topic whose unsynced entries are in one time block, nothing of it expired: the newest entries, as many as the limit allows.
-/

namespace Verif

theorem live_all {now : UInt32} {es : List WinEntry} (h : ∀ e ∈ es, e.isExpired now = false) : live now es = es := by
  rw [live, List.filter_eq_self]
  intro e he
  simp [h e he]

/-- The entries in memory, if they are all in one block. -/
theorem ilookup_one {now : UInt32} {es : List WinEntry} (h : ∀ e ∈ es, e.isExpired now = false) {limit : Int} :
    ilookup now [es] limit = es.reverse.take limit.toNat := by
  simp only [ilookup, ilookupLoop]
  by_cases h0 : es.length > 0
  · rw [if_pos h0, List.append_nil, live_all (fun e he => h e (List.mem_reverse.1 (List.mem_of_mem_take he)))]
    by_cases h1 : (es.length : Int) < limit - 0
    · rw [if_pos h1, List.take_of_length_le (by simp), List.take_of_length_le (by simp only [List.length_reverse]; omega)]
    · rw [if_neg h1, Int.sub_zero]
  · have : es = [] := List.length_eq_zero_iff.mp (by omega)
    subst this
    simp

/-- The chain on file, cut off at the limit; as `lookupChain_synced`, for files that were loaded again. -/
theorem lookupChain_ok {s : WinState} {led : List (UInt64 × List WinEntry)} (H : WinOK s led) (h : UInt64)
    (hf : led.head?.map (·.1) ≠ some h) (now : UInt32) (hl : ∀ e ∈ syncedFor led h, e.isExpired now = false) {cutoff : Int} (hc : cutoff ≤ 0)
    (acc : List WinEntry) (limit : Int) (ha : (acc.length : Int) ≤ limit) :
    lookupChain now s.file h cutoff (s.file.length / blockSize + 1) (s.offs h) acc limit =
      some ((acc ++ (syncedFor led h).reverse).take limit.toNat) := by
  obtain ⟨n, B, ks, d⟩ := H.onDisk
  obtain ⟨hz, hcont⟩ := d.all h hf
  have hdiv : s.file.length / blockSize = n := by rw [d.len]; show 4096 * n / 4096 = n; omega
  rw [hdiv, d.offs h]
  cases hk : ks h with
  | nil =>
    have hnil : syncedFor led h = [] := by rw [← hcont, hk]; rfl
    rw [hnil, List.reverse_nil, List.append_nil, List.take_of_length_le (by omega), lookupChain]
    simp only [headOff]
    by_cases h0 : n = 0
    · have hlen := d.len
      have : s.file = [] := List.length_eq_zero_iff.mp (by omega)
      rw [this]
      simp [readWindowBlock, readAt, slice?, blockSize]
    · have hr := d.read 0 (by omega)
      simp only [Int.natCast_zero, Int.mul_zero] at hr
      rw [hr]
      cases hh : led.head? with
      | none => exact absurd (d.empty (by simpa using hh)) h0
      | some p =>
        have := d.zero p hh
        have hne : (B 0).topicHash ≠ h := by
          rw [this]; intro hc; exact hf (by simp [hh, hc])
        simp only [lookupBlock, ne_eq, hne, not_false_eq_true, if_true]
  | cons k r =>
    have hch := d.chain h
    have hkn := d.known h
    rw [hk] at hch hkn
    rw [← hcont, hk] at hl
    rw [← hcont, hk]
    have := hch.length_le
    have h1 := hkn k (by simp)
    exact lookupChain_eq d hc r k (n + 1) acc limit hch hkn hl (by omega) ha

/-- The lookup of one topic: the newest entries. -/
theorem windowLookup_newest {s : WinState} {led : List (UInt64 × List WinEntry)} (H : WinOK s led) (now : UInt32)
    (lists : List (List WinEntry)) (hone : lists.length ≤ 1) (h : UInt64) (hf : led.head?.map (·.1) ≠ some h) (cutoff limit : Int) (hc : cutoff ≤ 0)
    (h0 : 0 ≤ limit) (hl : ∀ e ∈ syncedFor led h ++ lists.flatten, e.isExpired now = false) :
    windowLookup now lists s.file h (s.offs h) cutoff limit = some ((syncedFor led h ++ lists.flatten).reverse.take limit.toNat) := by
  have hil : ilookup now lists limit = lists.flatten.reverse.take limit.toNat := by
    match lists, hone with
    | [], _ => simp [ilookup, ilookupLoop]
    | [es], _ =>
      rw [ilookup_one (fun e he => hl e (by simp [he]))]
      simp
  rw [windowLookup, hil, List.reverse_append]
  by_cases hge : ((lists.flatten.reverse.take limit.toNat).length : Int) ≥ limit
  · rw [if_pos hge, List.take_append_of_le_length]
    rw [List.length_take] at hge
    omega
  · rw [if_neg hge]
    have hlt : lists.flatten.reverse.length < limit.toNat := by
      rw [List.length_take] at hge; omega
    rw [List.take_of_length_le (by omega), lookupChain_ok H h hf now (fun e he => hl e (List.mem_append_left _ he)) hc _ _ (by omega)]

/-- A Get whose limit cuts off: the newest messages of its topic. The messages are in the order of their sequences: the synced ones
`D`, then the others `U`. -/
theorem DbInv.get_newest {v : DbEnv} {s : Db} {U D : List Item} {L : Loc} {led : List (UInt64 × List WinEntry)} (I : DbInv v s U D L led)
    (htest : ∀ ks k, k ∈ ks → v.mem.test ks k = true) (hlen : s.store.data.length < 2 ^ 63) (g : GetEnv) (q : Query)
    (ht0 : q.topic ≠ []) (ht1 : q.topic.length ≤ 65536) (hcut : (q.ask v.dur g.now v.q).cutoff ≤ 0)
    (hlim : 0 ≤ (q.ask v.dur g.now v.q).limit)
    (how : ∀ w, (g.orderWin w).Perm w) (hot : ∀ ts, (g.orderTopics ts).Perm ts) (sel : Item → Bool) (h : UInt64)
    (hsel : ∀ i ∈ U ++ D, i.hash ∈ (s.trie.find (q.ask v.dur g.now v.q).contract q.topic).map TTopic.hash ↔ sel i = true)
    (hct : ∀ i ∈ U ++ D, sel i = true → i.contract = (q.ask v.dur g.now v.q).contract)
    (hone : ∀ i ∈ U ++ D, sel i = true → i.hash = h)
    (hfirst : led.head?.map (·.1) ≠ some h)
    (hblk : ∀ i ∈ U, ∀ j ∈ U, sel i = true → sel j = true → i.blk = j.blk)
    (hlive : ∀ i ∈ U ++ D, sel i = true → i.win.isExpired (toU32 (unixSec g.now)) = false)
    (hord : (D ++ U).Pairwise fun i j => i.seq < j.seq)
    (hcap : (((D ++ U).filter sel).reverse.take (q.ask v.dur g.now v.q).limit.toNat).length ≤ g.cap) :
    ∃ m, MInv v.mem m (memMap U) ∧ s.get v g q [] = ({ s with mem := m },
      .out (.ok ((((D ++ U).filter sel).reverse.take (q.ask v.dur g.now v.q).limit.toNat).map Item.payload))) := by
  generalize hask : q.ask v.dur g.now v.q = a at *
  generalize hnow : toU32 (unixSec g.now) = now at *
  obtain ⟨ops, htr, hops1, hops2⟩ := I.trie
  obtain ⟨w, H⟩ := I.hist
  have hdep := depth_consistent ops (by
    intro c key off hin
    obtain ⟨i, hi, _, rfl⟩ := hops2 c key off hin
    exact (I.ok i hi).plain)
  let find := s.trie.find a.contract q.topic
  obtain ⟨ts, hts⟩ : ∃ ts, ts = (g.orderTopics find).map fun t => (t.hash, t.offset.toInt) := ⟨_, rfl⟩
  have htsperm : (ts.map (·.1)).Perm (find.map TTopic.hash) := by
    have : ts.map (·.1) = (g.orderTopics find).map TTopic.hash := by simp [hts]
    rw [this]; exact (hot find).map _
  have hhs : (ts.map (·.1)).Nodup := htsperm.nodup_iff.2 (Trie.nodup_lookup _ _ _ _)
  have htopic : ∀ t ∈ ts, t = (h, offsOf s.trie h) := by
    intro t htm
    rw [hts] at htm
    obtain ⟨x, hx, rfl⟩ := List.mem_map.1 htm
    have hx' : x ∈ find := (hot find).mem_iff.1 hx
    have hxf : x ∈ (Trie.ofTopics ops).find a.contract q.topic := by rw [← htr]; exact hx'
    obtain ⟨h1, c', key, off, h2, h3⟩ := offset_of_find depthOf hdep hxf
    obtain ⟨i, hi, rfl, rfl⟩ := hops2 c' key off h2
    have hih : i.hash = x.hash := h3
    have hs : sel i = true := (hsel i hi).1 (by rw [hih]; exact List.mem_map_of_mem hx')
    have e := hone i hi hs
    rw [← e, hih]
    simp only [offsOf, htr, h1, Option.getD_some]
  -- the messages asked for, and the entries of the topic
  let S := (D ++ U).filter sel
  have hhash : ∀ i ∈ U ++ D, ts ≠ [] → (sel i = true ↔ i.hash = h) := by
    intro i hi hne
    refine ⟨hone i hi, fun e => (hsel i hi).1 ?_⟩
    obtain ⟨t, ht⟩ := List.exists_mem_of_ne_nil _ hne
    rw [e, ← htsperm.mem_iff]
    have := htopic t ht
    exact List.mem_map.2 ⟨t, ht, by rw [this]⟩
  have hlists : (winLists g.orderWin s.win h).length ≤ 1 ∨ ts = [] := by
    by_cases hne : ts = []
    · exact .inr hne
    · left
      have hp : (winLists g.orderWin s.win h).length = (s.win.filter fun p => p.1.2 = h).length := by
        rw [winLists, List.length_map]
        exact ((how s.win).filter _).length_eq
      rw [hp]
      by_contra hc
      obtain ⟨p, p', l, hl⟩ : ∃ p p' l, (s.win.filter fun p => decide (p.1.2 = h)) = p :: p' :: l := by
        revert hc
        generalize (s.win.filter fun p => decide (p.1.2 = h)) = l
        intro hc
        match l, hc with
        | [], hc => simp at hc
        | [p], hc => simp at hc
        | p :: p' :: l, _ => exact ⟨p, p', l, rfl⟩
      have hkeys : s.win.Pairwise fun p p' => p.1 ≠ p'.1 := by
        have := I.winNodup
        simp only [AMap.Nodup, AMap.keys, List.Nodup, List.pairwise_map] at this
        exact this
      have hpw := hkeys.filter (fun p => decide (p.1.2 = h))
      rw [hl] at hpw
      have hne2 := (List.pairwise_cons.1 hpw).1 p' (by simp)
      have hin : ∀ x, x ∈ p :: p' :: l → ∃ i ∈ U, i.blk = x.1.1 ∧ sel i = true ∧ x.1.2 = h := by
        intro x hx
        rw [← hl, List.mem_filter, decide_eq_true_eq] at hx
        have hg := I.winNodup.get_of_mem (k := x.1) (v := x.2) hx.1
        have hw := I.win x.1.1 x.1.2
        have hn := I.winNe _ _ hg
        rw [show (x.1.1, x.1.2) = x.1 from rfl, hg, Option.getD_some] at hw
        obtain ⟨e, he⟩ := List.exists_mem_of_ne_nil _ hn
        rw [hw] at he
        simp only [List.mem_map, List.mem_filter, decide_eq_true_eq] at he
        obtain ⟨i, ⟨hi, h1, h2⟩, _⟩ := he
        exact ⟨i, hi, h1, (hhash i (List.mem_append_left _ hi) hne).2 (h2.trans hx.2), hx.2⟩
      obtain ⟨i, hi, h1, h2, h3⟩ := hin p (by simp)
      obtain ⟨j, hj, h4, h5, h6⟩ := hin p' (by simp)
      have := hblk i hi j hj h2 h5
      exact hne2 (Prod.ext (by rw [← h1, ← h4, this]) (h3.trans h6.symm))
  -- the candidates
  have hlook : dbLookup now (winLists g.orderWin s.win) s.winFile a.cutoff a.limit ts [] =
      some ((S.reverse.take a.limit.toNat).map Item.seq) := by
    match hm : ts with
    | [] =>
      have hS : S = [] := by
        rw [List.filter_eq_nil_iff]
        intro i hi hs
        have := (hsel i (List.mem_append.2 (List.mem_append.1 hi).symm)).2 hs
        rw [← htsperm.mem_iff, hm] at this
        simp at this
      rw [hS, dbLookup]; simp
    | t :: t' :: l =>
      have e1 := htopic t (by rw [hm]; simp)
      have e2 := htopic t' (by rw [hm]; simp)
      rw [hm, e1, e2] at hhs
      simp at hhs
    | [t] =>
      have e1 := htopic t (by rw [hm]; simp)
      have hne : ts ≠ [] := by rw [hm]; simp
      have hl1 : (winLists g.orderWin s.win h).length ≤ 1 := by
        rcases hlists with hl | hl
        · exact hl
        · exact absurd hl hne
      have hperm := I.serves.lists_perm g.orderWin (how _) h
      have hflat : (winLists g.orderWin s.win h).flatten = (U.filter fun i => i.hash = h).map Item.win := by
        match hw : winLists g.orderWin s.win h with
        | [] =>
          rw [hw] at hperm
          have := hperm.length_eq
          exact (List.length_eq_zero_iff.mp (by simpa using this.symm)).symm
        | es :: es' :: l => rw [hw] at hl1; simp at hl1
        | [es] =>
          -- one list: that of one block
          have hin : es ∈ winLists g.orderWin s.win h := by rw [hw]; simp
          rw [winLists, List.mem_map] at hin
          obtain ⟨p, hp, rfl⟩ := hin
          rw [List.mem_filter, decide_eq_true_eq] at hp
          have hpm : p ∈ s.win := (how s.win).mem_iff.1 hp.1
          have hg := I.winNodup.get_of_mem (k := p.1) (v := p.2) hpm
          have hwn := I.win p.1.1 p.1.2
          rw [show (p.1.1, p.1.2) = p.1 from rfl, hg, Option.getD_some] at hwn
          simp only [List.flatten_cons, List.flatten_nil, List.append_nil]
          rw [hwn]
          congr 1
          have hpn := I.winNe _ _ hg
          obtain ⟨e, he⟩ := List.exists_mem_of_ne_nil _ hpn
          rw [hwn] at he
          simp only [List.mem_map, List.mem_filter, decide_eq_true_eq] at he
          obtain ⟨i, ⟨hi, h1, h2⟩, _⟩ := he
          apply List.filter_congr
          intro j hj
          by_cases ej : j.hash = h
          · have hsj := (hhash j (List.mem_append_left _ hj) hne).2 ej
            have hsi := (hhash i (List.mem_append_left _ hi) hne).2 (h2.trans hp.2)
            have := hblk j hj i hi hsj hsi
            simp [this, h1, ej, hp.2]
          · simp [ej, hp.2]
      have hent : syncedFor led h ++ (winLists g.orderWin s.win h).flatten = S.map Item.win := by
        rw [I.synced, hflat, ← List.map_append, ← List.filter_append]
        congr 1
        apply List.filter_congr
        intro i hi
        have := hhash i (List.mem_append.2 (List.mem_append.1 hi).symm) hne
        by_cases e : i.hash = h
        · simp [e, this.2 e]
        · have : ¬ sel i = true := fun hc => e (this.1 hc)
          simp [e, this]
      have hW := windowLookup_newest H now (winLists g.orderWin s.win h) hl1 h hfirst a.cutoff a.limit hcut hlim (by
        rw [hent]
        intro e he
        obtain ⟨i, hi, rfl⟩ := List.mem_map.1 he
        rw [List.mem_filter] at hi
        exact hlive i (List.mem_append.2 (List.mem_append.1 hi.1).symm) hi.2)
      rw [e1, dbLookup, if_neg (by simp only [List.length_nil]; omega)]
      simp only [List.length_nil, Int.natCast_zero, Int.sub_zero, Option.bind_eq_bind]
      simp only at hW
      rw [hW, hent]
      simp only [Option.bind_some, dbLookup, List.nil_append, Option.some.injEq]
      rw [← List.map_reverse, ← List.map_take, List.map_map]
      rfl
  let T := S.reverse.take a.limit.toNat
  have hTs : T.Pairwise fun i j => j.seq < i.seq := by
    refine List.Pairwise.sublist (List.take_sublist _ _) ?_
    rw [List.pairwise_reverse]
    exact hord.sublist List.filter_sublist
  have hsort : sortDesc (T.map Item.seq) = T.map Item.seq := by
    have ht : Std.Total (fun a b : UInt64 => b ≤ a) := ⟨fun a b => UInt64.le_total b a⟩
    have hr : IsTrans UInt64 (fun a b => b ≤ a) := ⟨fun a b c h1 h2 => UInt64.le_trans h2 h1⟩
    refine List.Perm.eq_of_pairwise (le := fun a b => b ≤ a) ?_ (List.pairwise_insertionSort _ _) ?_ (List.perm_insertionSort _ _)
    · intro a b _ _ hab hba
      exact UInt64.le_antisymm hba hab
    · rw [List.pairwise_map]
      exact hTs.imp fun h => UInt64.le_of_lt h
  have hTm : ∀ i ∈ T, i ∈ U ++ D ∧ sel i = true := by
    intro i hi
    have h1 := List.mem_reverse.1 (List.mem_of_mem_take hi)
    rw [List.mem_filter] at h1
    exact ⟨List.mem_append.2 (List.mem_append.1 h1.1).symm, h1.2⟩
  let f : UInt64 → Step := fun c => match (U ++ D).find? (fun i => i.seq = c) with | some i => .item i.payload | none => .skip
  have hfi : ∀ i ∈ U ++ D, f i.seq = .item i.payload := by
    intro i hi
    simp only [f, find_seq I.nodup hi]
  obtain ⟨m', hm', hg⟩ := getItemsS_all (step := s.candStepS v a) (fun m => MInv v.mem m (memMap U)) f (T.map Item.seq)
    (by
      intro m hm c hc
      obtain ⟨i, hi, rfl⟩ := List.mem_map.1 hc
      obtain ⟨h1, h2⟩ := hTm i hi
      rw [hfi i h1]
      exact I.serves.step htest hlen a hcut h1 (hct i h1 h2) hm rfl)
    (by
      intro c hc
      obtain ⟨i, hi, rfl⟩ := List.mem_map.1 hc
      rw [hfi i (hTm i hi).1]
      exact ⟨by simp, by simp⟩)
    g.cap a.limit (by rw [List.length_map]; exact hcap) (by
      rw [List.length_map]
      have : T.length ≤ a.limit.toNat := by rw [List.length_take]; omega
      omega) s.mem I.mem
  refine ⟨m', hm', ?_⟩
  have hpay : payloads f (T.map Item.seq) = T.map Item.payload := payloads_map fun i hi => hfi i (hTm i hi).1
  have hlq : q.topic.length ≠ 0 := by simpa using ht0
  rw [Db.get, if_neg (by simp [I.opened]), if_neg hlq, if_neg (by omega)]
  simp only [hask, hnow]
  have e : (List.map (fun t => (t.hash, t.offset.toInt)) (g.orderTopics (s.trie.lookup (parseTopic a.contract q.topic).1.parts
      (parseTopic a.contract q.topic).1.depth (parseTopic a.contract q.topic).2))) = ts := hts.symm
  rw [e, hlook]
  simp only
  rw [show (List.map Item.seq (List.take a.limit.toNat S.reverse)) = T.map Item.seq from rfl, hsort, hg]
  simp only [hpay, T, S]

end Verif
