import Verif.Model.MemRecovery
import Verif.Props.MemDb

/-! # C42: recovery of the in-memory store -/

namespace Verif

/-- A log on disk from its records. -/
def encLog (l : Int × List LogRec) : Int × Bytes := (l.1, l.2.flatMap fun x => encRec x.enc)

/-- C42 (partial: no key is put in two logs; a tombstone does not name the time id of a recovered block that lacks its key;
no buffer overflows): recovering any logs gives the map of the last puts without the deleted keys, for every iteration
order of the maps and every content of the read buffer after the log. It does not panic. -/
theorem C42_replay_partial (e : MEnv) (htest : ∀ ks k, k ∈ ks → e.test ks k = true) (r : RecEnv) (hlog : ∀ l, (r.orderLog l).Perm l)
    (hdel : ∀ l, (r.orderDel l).Perm l) (logs : List (Int × List LogRec)) (now : Int) (hfit : ∀ l ∈ logs, ∀ x ∈ l.2, x.fits)
    (hids : logs.Pairwise fun a b => a.1 ≤ b.1) (hdis : logs.Pairwise fun a b => ∀ k d d', LogRec.put k d ∈ a.2 → LogRec.put k d' ∉ b.2)
    (hcap : ∀ l ∈ logs, (e.cap : Int) ≤ truncTime r.interval l.1) (hcn : (e.cap : Int) ≤ now) (hnow : ∀ l ∈ logs, truncTime r.interval l.1 ≤ now)
    (href : ∀ t k, LogRec.del t k ∈ logs.flatMap (·.2) → ∀ l ∈ logs, truncTime r.interval l.1 = t →
      ∃ l' ∈ logs, truncTime r.interval l'.1 = t ∧ ∃ d, LogRec.put k d ∈ l'.2) :
    ∃ s o, MemDb.recover e r (logs.map encLog) now = some (s, o) ∧ (o = .ok → ∀ key,
      (s.get e key).2 = (match Spec.replay (logs.flatMap (·.2)) key with | some d => .value d | none => .notFound)) := by
  simp only [MemDb.recover]
  generalize hf : firstTime r (logs.map encLog) now = first
  have hfirst : (e.cap : Int) ≤ first ∧ first ≤ now ∧ ∀ l ∈ logs, first ≤ truncTime r.interval l.1 := by
    cases logs with
    | nil => simp [firstTime] at hf; subst hf; exact ⟨hcn, Int.le_refl _, by simp⟩
    | cons l logs =>
      simp only [List.map_cons, encLog, firstTime] at hf
      subst hf
      refine ⟨hcap l List.mem_cons_self, hnow l List.mem_cons_self, ?_⟩
      intro l' hl'
      rcases List.mem_cons.mp hl' with rfl | hl'
      · exact Int.le_refl _
      · exact truncTime_mono _ ((List.pairwise_cons.mp hids).1 l' hl')
  have h0 : RecInv e r ({ cur := first } : MemDb) [] [] :=
    ⟨MInv.blank e first hfirst.1, by simp, by simp, AMap.Nodup.nil, by simp⟩
  obtain ⟨s1, dels, o, hl, hgood⟩ := h0.logs r hlog logs hfit hfirst.2.2 hids (by simp) hdis
  have hl' : MemDb.recLogs e r { cur := first } [] (logs.map encLog) = some (s1, dels, o) := hl
  rw [hl']
  refine ⟨_, _, rfl, fun ho key => ?_⟩
  obtain ⟨hI, hc⟩ := hgood ho
  rw [List.nil_append] at hI
  have hp := hdel dels
  have hnd : AMap.Nodup (r.orderDel dels) := by
    have : (AMap.keys (r.orderDel dels)).Perm dels.keys := hp.map _
    exact this.nodup_iff.mpr hI.nodup
  have hmem : ∀ p ∈ r.orderDel dels, ∀ k ∈ p.2, LogRec.del p.1 k ∈ logs.flatMap (·.2) := by
    intro p hpm k hk
    rw [← hI.dels, hI.nodup.get_of_mem (hp.mem_iff.mp hpm)]
    exact hk
  have hall := hI.inv.recAllDels htest (r.orderDel dels) (fun p hpm k hk a ha hm => by
    obtain ⟨l, hlm, hlt⟩ := hI.ids p.1 a ha
    obtain ⟨l', hl'm, hl't, d, hd⟩ := href p.1 k (hmem p hpm k hk) l hlm hlt
    obtain ⟨a', h1, h2⟩ := hI.place l' hl'm k d hd
    rw [hl't, ha] at h1
    simp only [Option.some.injEq] at h1
    rw [h1]; exact h2)
  obtain ⟨hA, hAc⟩ := hall
  have hcur : s1.cur ≤ now := by
    by_cases hx : ∀ l ∈ logs, s1.cur ≠ truncTime r.interval l.1
    · rw [hc hx]; exact hfirst.2.1
    · simp only [not_forall, not_not] at hx
      obtain ⟨l, hlm, hle⟩ := hx
      rw [hle]; exact hnow l hlm
  have hR := hA.rotate now (by rw [hAc]; exact hcur)
  have := (hR.get htest key).2
  rw [this]
  have hval : (if ∃ p ∈ r.orderDel dels, key ∈ p.2 then none else Spec.lastPut (logs.flatMap (·.2)) key) = Spec.replay (logs.flatMap (·.2)) key := by
    simp only [Spec.replay]
    have : (∃ p ∈ r.orderDel dels, key ∈ p.2) ↔ Spec.tomb (logs.flatMap (·.2)) key = true := by
      rw [Spec.tomb_iff]
      constructor
      · rintro ⟨p, hpm, hk⟩; exact ⟨p.1, hmem p hpm key hk⟩
      · rintro ⟨t, ht⟩
        rw [← hI.dels] at ht
        cases hg : dels.get t with
        | none => rw [hg] at ht; simp at ht
        | some ks => rw [hg] at ht; exact ⟨(t, ks), hp.mem_iff.mpr (AMap.mem_of_get _ hg), ht⟩
    simp only [this]
  rw [hval]
  cases Spec.replay (logs.flatMap (·.2)) key <;> rfl

/-! ## Histories without deletes -/

namespace Spec

/-- What a history leaves: the puts not yet in a log (with their block), and the logs. -/
structure Logged where
  cur : Int
  pending : List (Int × UInt64 × Bytes) := []
  logs : List (Int × List LogRec) := []

def logStep (s : Logged) : MOp → Logged
  | .rotate t => { s with cur := t }
  | .put k d => { s with pending := s.pending ++ [(s.cur, k, d)] }
  | .delete _ => s
  | .get _ => s
  | .write id t _ =>
    let rs := s.pending.filter (·.1 = t)
    if rs = [] then s else
    { s with pending := s.pending.filter (·.1 ≠ t), logs := s.logs ++ [(id, rs.map fun p => .put p.2.1 p.2.2)] }

/-- The id of the last log. -/
def lastId (last : Int) : MOp → Int
  | .write id _ _ => id
  | _ => last

/-- The histories of C42: no deletes, log ids increase. -/
def putsOnly : Int → List MOp → Prop
  | _, [] => True
  | last, op :: ops => (match op with
      | .delete _ => False
      | .write id _ _ => last < id
      | _ => True) ∧ putsOnly (lastId last op) ops

end Spec

/-- The blocks hold what is pending after what was logged. -/
structure LogInv (s : MemDb) (g : Spec.Logged) (last : Int) : Prop where
  opened : s.closed = false
  cur : s.cur = g.cur
  ready : (s.blocks.get s.cur).isSome
  addr : ∀ t a, s.blocks.get t = some a → a < s.heap.length
  inj : ∀ t t' a, s.blocks.get t = some a → s.blocks.get t' = some a → t = t'
  tail : ∀ t a, s.blocks.get t = some a → (s.at a).lastOffset ≤ (s.at a).data.length ∧
    (s.at a).data.drop (s.at a).lastOffset = (g.pending.filter (·.1 = t)).flatMap fun p => encRec (⟨false, p.2.1⟩, p.2.2)
  block : ∀ p ∈ g.pending, (s.blocks.get p.1).isSome
  wal : s.wal = g.logs.map encLog
  ids : ∀ l ∈ g.logs, l.1 ≤ last
  mono : g.logs.Pairwise fun a b => a.1 ≤ b.1

theorem MBlock.put_bytes {cap : Nat} {b b' : MBlock} {k : MKey} {d : Bytes} (h : b.put cap k d = some b') :
    b'.data = b.data ++ encRec (k, d) ∧ b'.lastOffset = b.lastOffset := by
  simp only [MBlock.put] at h
  split at h
  · simp at h
  · simp only [Option.some.injEq] at h
    subst h
    exact ⟨put_data _ _ _, rfl⟩

theorem LogInv.same {s s' : MemDb} {g : Spec.Logged} {last : Int} (h : LogInv s g last) (h1 : s'.closed = s.closed) (h2 : s'.cur = s.cur)
    (h3 : s'.blocks = s.blocks) (h4 : s'.heap = s.heap) (h5 : s'.wal = s.wal) : LogInv s' g last := by
  refine ⟨by rw [h1]; exact h.opened, by rw [h2]; exact h.cur, by rw [h2, h3]; exact h.ready, ?_, ?_, ?_, ?_, by rw [h5]; exact h.wal, h.ids, h.mono⟩
  · intro t a hb; rw [h4]; rw [h3] at hb; exact h.addr t a hb
  · intro t t' a hb hb'; rw [h3] at hb hb'; exact h.inj t t' a hb hb'
  · intro t a hb
    rw [h3] at hb
    have : s'.at a = s.at a := by simp only [MemDb.at, h4]
    rw [this]; exact h.tail t a hb
  · intro p hp; rw [h3]; exact h.block p hp

theorem MemDb.getFuel_mem (e : MEnv) (n : Nat) (s : MemDb) (key : UInt64) : (MemDb.getFuel e n s key).1.heap = s.heap ∧
    (MemDb.getFuel e n s key).1.wal = s.wal ∧ (MemDb.getFuel e n s key).1.closed = s.closed := by
  have hscan : ∀ (s : MemDb) ts r, s.scanCache e key ts = some r → r.1.heap = s.heap ∧ r.1.wal = s.wal ∧ r.1.closed = s.closed := by
    intro s ts r h
    induction ts with
    | nil => simp [MemDb.scanCache] at h
    | cons t ts ih =>
      simp only [MemDb.scanCache] at h
      split at h
      · exact ih h
      · split at h
        · simp only [Option.some.injEq] at h; subst h; exact ⟨rfl, rfl, rfl⟩
        · split at h
          · exact ih h
          · simp at h
  induction n generalizing s with
  | zero => exact ⟨rfl, rfl, rfl⟩
  | succ n ih =>
    simp only [MemDb.getFuel]
    split
    · exact ⟨rfl, rfl, rfl⟩
    · split
      · exact ⟨rfl, rfl, rfl⟩
      · next s' hs =>
        have hc : s'.heap = s.heap ∧ s'.wal = s.wal ∧ s'.closed = s.closed := by
          split at hs
          · simp only [MemDb.seek] at hs
            split at hs
            · simp at hs
            · simp only [Option.some.injEq] at hs; subst hs; exact ⟨rfl, rfl, rfl⟩
          · simp only [Option.some.injEq] at hs; rw [hs]; exact ⟨rfl, rfl, rfl⟩
        rw [← hc.1, ← hc.2.1, ← hc.2.2]
        split
        · next r hr =>
          simp only [MemDb.tryCache] at hr
          split at hr
          · simp only [Option.some.injEq] at hr; subst hr; exact ⟨rfl, rfl, rfl⟩
          · exact hscan _ _ _ hr
        · exact ih _

theorem LogInv.step (e : MEnv) {s : MemDb} {g : Spec.Logged} {last : Int} (h : LogInv s g last) (op : MOp) (ops : List MOp)
    (hp : Spec.putsOnly last (op :: ops)) (hok : (s.step e op).2 ≠ .full) :
    LogInv (s.step e op).1 (Spec.logStep g op) (Spec.lastId last op) := by
  obtain ⟨a0, ha0⟩ := Option.isSome_iff_exists.mp h.ready
  cases op with
  | delete k => exact absurd hp.1 (by simp)
  | get k =>
    obtain ⟨c1, c2⟩ := MemDb.getFuel_same e 2 s k
    obtain ⟨m1, m2, m3⟩ := MemDb.getFuel_mem e 2 s k
    exact h.same m3 c1 c2 m1 m2
  | rotate t =>
    simp only [MemDb.step, Spec.logStep]
    have hr := s.rotate_ready t
    simp only [MemDb.rotate, MemDb.addTimeBlock] at hr ⊢
    cases hb : s.blocks.get t with
    | some a =>
      rw [hb] at hr
      exact ⟨h.opened, rfl, hr, h.addr, h.inj, h.tail, h.block, h.wal, h.ids, h.mono⟩
    | none =>
      rw [hb] at hr
      simp only at hr ⊢
      have hget : ∀ t' a', (s.blocks.set t s.heap.length).get t' = some a' → (t' = t ∧ a' = s.heap.length) ∨ s.blocks.get t' = some a' := by
        intro t' a' h'
        rw [AMap.get_set] at h'
        split at h'
        · next e' => simp only [Option.some.injEq] at h'; exact Or.inl ⟨e', h'.symm⟩
        · exact Or.inr h'
      refine ⟨h.opened, rfl, hr, ?_, ?_, ?_, ?_, h.wal, h.ids, h.mono⟩
      · intro t' a' h'
        simp only [List.length_append, List.length_singleton]
        rcases hget t' a' h' with ⟨_, rfl⟩ | h'
        · omega
        · have := h.addr t' a' h'; omega
      · intro t1 t2 a' h1 h2
        rcases hget _ _ h1 with ⟨e1, e2⟩ | h1 <;> rcases hget _ _ h2 with ⟨e3, e4⟩ | h2
        · rw [e1, e3]
        · have := h.addr _ _ h2; omega
        · have := h.addr _ _ h1; omega
        · exact h.inj _ _ _ h1 h2
      · intro t' a' h'
        simp only [MemDb.at, List.getD_eq_getElem?_getD]
        rcases hget t' a' h' with ⟨rfl, rfl⟩ | h'
        · have hnone : g.pending.filter (·.1 = t') = [] := by
            rw [List.filter_eq_nil_iff]
            intro p hp'
            simp only [decide_eq_true_eq]
            intro e'
            have := h.block p hp'
            rw [e', hb] at this
            simp at this
          simp [hnone]
        · rw [List.getElem?_append_left (h.addr _ _ h')]
          have := h.tail t' a' h'
          simp only [MemDb.at, List.getD_eq_getElem?_getD] at this
          exact this
      · intro p hp'
        simp only [AMap.get_set]
        split
        · rfl
        · exact h.block p hp'
  | put k d =>
    simp only [MemDb.step, MemDb.put, MemDb.putAt, h.opened, ha0, Spec.logStep] at hok ⊢
    cases hb : (s.at a0).put e.cap ⟨false, k⟩ d with
    | none => rw [hb] at hok; simp at hok
    | some b =>
      simp only [Bool.false_eq_true, if_false]
      obtain ⟨hd, hlo⟩ := MBlock.put_bytes hb
      have hlt := h.addr _ _ ha0
      have hat : ∀ a, MemDb.at (MemDb.addTimeFilter e (s.setAt a0 b) s.cur k) a = if a = a0 then b else s.at a := fun a => s.at_setAt a0 a b hlt
      refine ⟨h.opened, h.cur, h.ready, ?_, h.inj, ?_, ?_, h.wal, h.ids, h.mono⟩
      · intro t a hb'
        simp only [MemDb.addTimeFilter, MemDb.setAt, List.length_set]
        exact h.addr t a hb'
      · intro t a hb'
        change s.blocks.get t = some a at hb'
        rw [hat]
        simp only [List.filter_append, List.flatMap_append]
        split
        · next e' =>
          subst e'
          have htc : t = s.cur := h.inj _ _ _ hb' ha0
          obtain ⟨t1, t2⟩ := h.tail _ _ ha0
          rw [hd, hlo, htc]
          refine ⟨by rw [List.length_append]; omega, ?_⟩
          rw [List.drop_append_of_le_length t1, t2, ← h.cur]
          simp
        · next hne =>
          have htc : t ≠ s.cur := by
            rintro rfl
            rw [ha0] at hb'
            simp only [Option.some.injEq] at hb'
            exact hne hb'.symm
          obtain ⟨t1, t2⟩ := h.tail _ _ hb'
          refine ⟨t1, ?_⟩
          rw [t2]
          have : ¬ g.cur = t := by rw [← h.cur]; exact fun e' => htc e'.symm
          simp [this]
      · intro p hp'
        rcases List.mem_append.mp hp' with hp' | hp'
        · exact h.block p hp'
        · simp only [List.mem_singleton] at hp'
          subst hp'
          rw [← h.cur]; exact h.ready
  | write id t managed =>
    have hid : last < id := hp.1
    simp only [MemDb.step, Spec.logStep]
    have hcore : LogInv (s.write id t true) (Spec.logStep g (.write id t managed)) id := by
      simp only [MemDb.write, Spec.logStep]
      cases hb : s.blocks.get t with
      | none =>
        have hnone : g.pending.filter (·.1 = t) = [] := by
          rw [List.filter_eq_nil_iff]
          intro p hp'
          simp only [decide_eq_true_eq]
          intro e'
          have := h.block p hp'
          rw [e', hb] at this
          simp at this
        simp only [hnone, if_true]
        exact ⟨h.opened, h.cur, h.ready, h.addr, h.inj, h.tail, h.block, h.wal, fun l hl => by have := h.ids l hl; omega, h.mono⟩
      | some a =>
        obtain ⟨t1, t2⟩ := h.tail _ _ hb
        simp only
        have hiff : (s.at a).data.drop (s.at a).lastOffset = [] ↔ g.pending.filter (·.1 = t) = [] := by
          rw [t2]
          constructor
          · intro hnil
            cases hf : g.pending.filter (·.1 = t) with
            | nil => rfl
            | cons p ps =>
              rw [hf, List.flatMap_cons] at hnil
              have := congrArg List.length hnil
              rw [List.length_append, length_encRec] at this
              simp at this
          · intro hnil; rw [hnil]; rfl
        by_cases hnil : (s.at a).data.drop (s.at a).lastOffset = []
        · rw [if_pos hnil, if_pos (hiff.mp hnil)]
          simp only [if_true]
          exact ⟨h.opened, h.cur, h.ready, h.addr, h.inj, h.tail, h.block, h.wal, fun l hl => by have := h.ids l hl; omega, h.mono⟩
        · rw [if_neg hnil, if_neg (fun hc => hnil (hiff.mpr hc))]
          simp only [if_true]
          have hlt := h.addr _ _ hb
          have hat := fun a' => s.at_setAt a a' { s.at a with lastOffset := (s.at a).data.length, timeRefs := (s.at a).timeRefs ++ [id] } hlt
          refine ⟨h.opened, h.cur, h.ready, ?_, h.inj, ?_, ?_, ?_, ?_, ?_⟩
          · intro t' a' hb'
            simp only [MemDb.setAt, List.length_set]
            exact h.addr t' a' hb'
          · intro t' a' hb'
            change s.blocks.get t' = some a' at hb'
            change (MemDb.at (s.setAt a _) a').lastOffset ≤ (MemDb.at (s.setAt a _) a').data.length ∧ List.drop (MemDb.at (s.setAt a _) a').lastOffset (MemDb.at (s.setAt a _) a').data = _
            rw [hat]
            split
            · next e' =>
              subst e'
              have : t' = t := h.inj _ _ _ hb' hb
              subst this
              refine ⟨Nat.le_refl _, ?_⟩
              simp
            · next hne =>
              have htt : t' ≠ t := by
                rintro rfl
                rw [hb] at hb'
                simp only [Option.some.injEq] at hb'
                exact hne hb'.symm
              obtain ⟨t3, t4⟩ := h.tail _ _ hb'
              refine ⟨t3, ?_⟩
              rw [t4, List.filter_filter]
              congr 1
              apply List.filter_congr
              intro x _
              by_cases hx : x.1 = t'
              · simp [hx, htt]
              · simp [hx]
          · intro p hp'
            exact h.block p (List.mem_filter.mp hp').1
          · have hfresh : s.wal.filter (fun x => decide (x.1 ≠ id)) = s.wal := by
              rw [List.filter_eq_self]
              intro x hx
              rw [h.wal] at hx
              obtain ⟨l, hl, rfl⟩ := List.mem_map.mp hx
              have := h.ids l hl
              have hne : l.1 ≠ id := by omega
              exact decide_eq_true hne
            simp only [hfresh, List.map_append, List.map_cons, List.map_nil]
            rw [h.wal, t2]
            congr 1
            simp only [encLog, List.flatMap_map, LogRec.enc]
          · intro l hl
            rcases List.mem_append.mp hl with hl | hl
            · have := h.ids l hl; omega
            · simp only [List.mem_singleton] at hl; subst hl; exact Int.le_refl _
          · rw [List.pairwise_append]
            refine ⟨h.mono, by simp, ?_⟩
            intro x hx y hy
            simp only [List.mem_singleton] at hy
            subst hy
            have := h.ids x hx
            simp only; omega
    cases managed with
    | true => exact hcore
    | false => exact hcore.same rfl rfl rfl rfl rfl

theorem LogInv.run (e : MEnv) (ops : List MOp) {s : MemDb} {g : Spec.Logged} {last : Int} (h : LogInv s g last)
    (hp : Spec.putsOnly last ops) (hok : MOut.full ∉ (s.run e ops).2) : ∃ last', LogInv (s.run e ops).1 (ops.foldl Spec.logStep g) last' := by
  induction ops generalizing s g last with
  | nil => exact ⟨last, h⟩
  | cons op ops ih =>
    simp only [MemDb.run, List.mem_cons, not_or] at hok ⊢
    exact ih (h.step e op ops hp (fun hc => hok.1 hc.symm)) hp.2 hok.2

/-- The keys a history puts. -/
def Spec.putKeys (ops : List MOp) : List UInt64 := ops.filterMap fun op => match op with | .put k _ => some k | _ => none

/-- Every record of a log is a put of the history, and every key is put once. -/
theorem logged_keys (ops : List MOp) (g : Spec.Logged) (hg : ∀ l ∈ g.logs, ∀ x ∈ l.2, ∃ k d, x = LogRec.put k d)
    (hn : ((g.logs.flatMap (·.2)).filterMap (fun x => match x with | .put k _ => some k | .del _ _ => none) ++ g.pending.map (·.2.1) ++ Spec.putKeys ops).Nodup)
    (hd : ∀ k d, MOp.put k d ∈ ops → d.length + 13 < 2 ^ 32) (hf : ∀ l ∈ g.logs, ∀ x ∈ l.2, x.fits) (hpf : ∀ p ∈ g.pending, p.2.2.length + 13 < 2 ^ 32) :
    (∀ l ∈ (ops.foldl Spec.logStep g).logs, ∀ x ∈ l.2, x.fits ∧ ∃ k d, x = LogRec.put k d) ∧
      (((ops.foldl Spec.logStep g).logs.flatMap (·.2)).filterMap (fun x => match x with | .put k _ => some k | .del _ _ => none)).Nodup := by
  induction ops generalizing g with
  | nil =>
    refine ⟨fun l hl x hx => ⟨hf l hl x hx, hg l hl x hx⟩, ?_⟩
    rw [List.append_assoc] at hn
    exact (List.nodup_append.mp hn).1
  | cons op ops ih =>
    rw [List.foldl_cons]
    have hd' : ∀ k d, MOp.put k d ∈ ops → d.length + 13 < 2 ^ 32 := fun k d h => hd k d (List.mem_cons_of_mem _ h)
    cases op with
    | rotate t => exact ih _ hg (by simpa [Spec.putKeys, Spec.logStep] using hn) hd' hf hpf
    | get k => exact ih _ hg (by simpa [Spec.putKeys, Spec.logStep] using hn) hd' hf hpf
    | delete k => exact ih _ hg (by simpa [Spec.putKeys, Spec.logStep] using hn) hd' hf hpf
    | put k d =>
      refine ih _ hg ?_ hd' hf ?_
      · simpa [Spec.putKeys, Spec.logStep] using hn
      · intro p hp
        rcases List.mem_append.mp hp with hp | hp
        · exact hpf p hp
        · simp only [List.mem_singleton] at hp; subst hp; exact hd k d List.mem_cons_self
    | write id t managed =>
      simp only [Spec.logStep]
      split
      · exact ih _ hg (by simpa [Spec.putKeys] using hn) hd' hf hpf
      · refine ih _ ?_ ?_ hd' ?_ ?_
        · intro l hl x hx
          rcases List.mem_append.mp hl with hl | hl
          · exact hg l hl x hx
          · simp only [List.mem_singleton] at hl
            subst hl
            obtain ⟨p, _, rfl⟩ := List.mem_map.mp hx
            exact ⟨_, _, rfl⟩
        · have hperm : (g.pending.filter (·.1 = t) ++ g.pending.filter (·.1 ≠ t)).Perm g.pending := by
            have := List.filter_append_perm (fun p : Int × UInt64 × Bytes => decide (p.1 = t)) g.pending
            simpa using this
          have hk := hperm.map (fun p : Int × UInt64 × Bytes => p.2.1)
          rw [List.map_append] at hk
          refine (List.Perm.nodup_iff ?_).mpr hn
          have hpk : Spec.putKeys (MOp.write id t managed :: ops) = Spec.putKeys ops := rfl
          rw [hpk]
          apply List.Perm.append_right
          simp only [List.flatMap_append, List.flatMap_cons, List.flatMap_nil, List.append_nil, List.filterMap_append, List.append_assoc]
          apply List.Perm.append_left
          have hfm : ((g.pending.filter (·.1 = t)).map fun p => LogRec.put p.2.1 p.2.2).filterMap (fun x => match x with | .put k _ => some k | .del _ _ => none) =
              (g.pending.filter (·.1 = t)).map (·.2.1) := by
            rw [List.filterMap_map]
            rw [← List.filterMap_eq_map]
            rfl
          rw [hfm]
          exact hk
        · intro l hl x hx
          rcases List.mem_append.mp hl with hl | hl
          · exact hf l hl x hx
          · simp only [List.mem_singleton] at hl
            subst hl
            obtain ⟨p, hp, rfl⟩ := List.mem_map.mp hx
            exact hpf p (List.mem_filter.mp hp).1
        · intro p hp
          exact hpf p (List.mem_filter.mp hp).1

theorem nodup_disjoint (logs : List (Int × List LogRec))
    (h : ((logs.flatMap (·.2)).filterMap (fun x => match x with | .put k _ => some k | .del _ _ => none)).Nodup) :
    logs.Pairwise fun a b => ∀ k d d', LogRec.put k d ∈ a.2 → LogRec.put k d' ∉ b.2 := by
  induction logs with
  | nil => exact List.Pairwise.nil
  | cons l logs ih =>
    rw [List.flatMap_cons, List.filterMap_append, List.nodup_append] at h
    rw [List.pairwise_cons]
    refine ⟨?_, ih h.2.1⟩
    intro b hb k d d' hk hk'
    refine h.2.2 k ?_ k ?_ rfl
    · exact List.mem_filterMap.mpr ⟨_, hk, rfl⟩
    · exact List.mem_filterMap.mpr ⟨_, List.mem_flatMap.mpr ⟨b, hb, hk'⟩, rfl⟩

theorem replay_puts (rs : List LogRec) (h : ∀ x ∈ rs, ∃ k d, x = LogRec.put k d) (key : UInt64) : Spec.replay rs key = Spec.lastPut rs key := by
  simp only [Spec.replay]
  have : Spec.tomb rs key = false := by
    cases hb : Spec.tomb rs key with
    | false => rfl
    | true =>
      obtain ⟨t, ht⟩ := (Spec.tomb_iff rs key).mp hb
      obtain ⟨k, d, hx⟩ := h _ ht
      simp at hx
  simp [this]

/-- C42 (partial: no deletes, every key put once): after every history of puts, block rotations, reads and log writes
that increase in time, split into logs in any way, recovery gives exactly the puts that reached a log. -/
theorem C42_puts_partial (e : MEnv) (htest : ∀ ks k, k ∈ ks → e.test ks k = true) (r : RecEnv) (hlog : ∀ l, (r.orderLog l).Perm l)
    (hdel : ∀ l, (r.orderDel l).Perm l) (t0 last : Int) (ops : List MOp) (hops : Spec.putsOnly last ops) (hkeys : (Spec.putKeys ops).Nodup)
    (hsize : ∀ k d, MOp.put k d ∈ ops → d.length + 13 < 2 ^ 32) (hok : MOut.full ∉ ((MemDb.new t0).run e ops).2) (now : Int)
    (hcn : (e.cap : Int) ≤ now)
    (htime : ∀ l ∈ (ops.foldl Spec.logStep ⟨t0, [], []⟩).logs, (e.cap : Int) ≤ truncTime r.interval l.1 ∧ truncTime r.interval l.1 ≤ now) :
    ∃ s o, MemDb.recover e r ((MemDb.new t0).run e ops).1.wal now = some (s, o) ∧ (o = .ok → ∀ key, (s.get e key).2 =
      (match Spec.lastPut ((ops.foldl Spec.logStep ⟨t0, [], []⟩).logs.flatMap (·.2)) key with | some d => .value d | none => .notFound)) := by
  have h0 : LogInv (MemDb.new t0) ⟨t0, [], []⟩ last := by
    have hg : ∀ t' a', (MemDb.new t0).blocks.get t' = some a' → t' = t0 ∧ a' = 0 := by
      intro t' a' h'
      have : (MemDb.new t0).blocks = [(t0, 0)] := rfl
      rw [this] at h'
      simp only [AMap.get] at h'
      split at h'
      · next e' => simp only [Option.some.injEq] at h'; exact ⟨e'.symm, h'.symm⟩
      · simp at h'
    refine ⟨rfl, rfl, MemDb.rotate_ready _ t0, ?_, ?_, ?_, by simp, rfl, by simp, by simp⟩
    · intro t a h; obtain ⟨_, rfl⟩ := hg t a h; exact Nat.zero_lt_one
    · intro t t' a h1 h2; rw [(hg _ _ h1).1, (hg _ _ h2).1]
    · intro t a h; obtain ⟨_, rfl⟩ := hg t a h
      exact ⟨Nat.le_refl _, rfl⟩
  obtain ⟨last', hL⟩ := h0.run e ops hops hok
  obtain ⟨hfit, hnd⟩ := logged_keys ops ⟨t0, [], []⟩ (by simp) (by simpa using hkeys) hsize (by simp) (by simp)
  have hputs : ∀ x ∈ (ops.foldl Spec.logStep ⟨t0, [], []⟩).logs.flatMap (·.2), ∃ k d, x = LogRec.put k d := by
    intro x hx
    obtain ⟨l, hl, hx⟩ := List.mem_flatMap.mp hx
    exact (hfit l hl x hx).2
  rw [hL.wal]
  obtain ⟨s, o, hs, hg⟩ := C42_replay_partial e htest r hlog hdel _ now (fun l hl x hx => (hfit l hl x hx).1) hL.mono (nodup_disjoint _ hnd)
    (fun l hl => (htime l hl).1) hcn (fun l hl => (htime l hl).2) (fun t k hk => by obtain ⟨_, _, hx⟩ := hputs _ hk; simp at hx)
  refine ⟨s, o, hs, fun ho key => ?_⟩
  rw [hg ho key, replay_puts _ hputs key]

/-- The recovery of the examples: log interval 10, nothing after the log in the buffer, maps in insertion order. -/
def RecEnv.std : RecEnv := ⟨10, [], id, id⟩

/-- What a key reads as after a history, and after a crash and recovery at that point; `none` is a panic. -/
def readBoth (ops : List MOp) (r : RecEnv) (key : UInt64) : MOut × Option MOut :=
  let s := ((MemDb.new 1000).run MEnv.one ops).1
  ((s.get MEnv.one key).2, (MemDb.recover MEnv.one r s.wal 9000).map fun x => (x.1.get MEnv.one key).2)

def exampleLogHistory : List MOp :=
  [.put 1 [1], .put 2 [2, 2], .write 1001 1000 false, .get 2, .rotate 2000, .put 3 [3], .put 4 [], .write 2001 2000 false, .put 5 [5]]

example : (∀ l, (RecEnv.std.orderLog l).Perm l) ∧ (∀ l, (RecEnv.std.orderDel l).Perm l) ∧ Spec.putsOnly 1000 exampleLogHistory ∧
    (Spec.putKeys exampleLogHistory).Nodup ∧ MOut.full ∉ ((MemDb.new 1000).run MEnv.one exampleLogHistory).2 ∧
    (∀ l ∈ (exampleLogHistory.foldl Spec.logStep ⟨1000, [], []⟩).logs, (MEnv.one.cap : Int) ≤ truncTime RecEnv.std.interval l.1 ∧ truncTime RecEnv.std.interval l.1 ≤ 9000) ∧
    (exampleLogHistory.foldl Spec.logStep ⟨1000, [], []⟩).logs = [(1001, [.put 1 [1], .put 2 [2, 2]]), (2001, [.put 3 [3], .put 4 []])] := by
  refine ⟨fun l => List.Perm.refl _, fun l => List.Perm.refl _, ?_, by decide, by decide +kernel, by decide, by decide⟩
  simp [exampleLogHistory, Spec.putsOnly, Spec.lastId]

example : readBoth exampleLogHistory RecEnv.std 2 = (.value [2, 2], some (.value [2, 2])) ∧ readBoth exampleLogHistory RecEnv.std 5 = (.value [5], some .notFound) := by
  decide +kernel

/-- The hypotheses of `C42_replay_partial` with a delete that recovery does apply. -/
def exampleLogs : List (Int × List LogRec) := [(1001, [.put 1 [1], .put 2 [2]]), (2001, [.del 1500 1, .put 3 [3]])]

example : (exampleLogs.Pairwise fun a b => a.1 ≤ b.1) ∧ (∀ l ∈ exampleLogs, truncTime 10 l.1 ≤ 9000 ∧ truncTime 10 l.1 ≠ 1500) ∧
    (MemDb.recover MEnv.one RecEnv.std (exampleLogs.map encLog) 9000).map (fun x => ((x.1.get MEnv.one 1).2, (x.1.get MEnv.one 2).2, x.2)) =
      some (.notFound, .value [2], .ok) := by
  refine ⟨by decide, by decide, by decide +kernel⟩

/-- C42 is false: a key deleted and put again is lost, since all deletes come after all puts. -/
theorem C42_reput_violated : readBoth [.put 1 [1], .write 1001 1000 false, .delete 1, .put 1 [2], .write 1002 1000 false] RecEnv.std 1 =
    (.value [2], some .notFound) := by decide +kernel

/-- C42 is false: the block that held the tombstone lost its last key, so its logs were removed, and the deleted key is
back. -/
theorem C42_tombstone_lost_violated : readBoth [.put 1 [1], .put 5 [5], .write 1001 1000 false, .rotate 2000, .put 2 [2], .delete 1,
    .write 2001 2000 false, .rotate 3000, .delete 2] RecEnv.std 1 = (.notFound, some (.value [1])) := by decide +kernel

/-- C42 is false: blocks are recovered by log interval, tombstones name the block before the crash. If a recovered block has
that time id but the key was in a later log, the delete is skipped. -/
theorem C42_wrong_block_violated : readBoth [.put 9 [9], .write 1001 1000 false, .put 1 [1], .write 1021 1000 false, .rotate 2000, .delete 1,
    .write 2001 2000 false] RecEnv.std 1 = (.notFound, some (.value [1])) := by decide +kernel

/-- C42 is false: a put deleted before its log was written is flagged in place and keeps its payload, which recovery takes for
an 8 byte time id. If the buffer ends there, opening the database panics. -/
theorem C42_short_payload_violated : readBoth [.put 1 [1], .put 2 [2], .rotate 2000, .delete 2, .write 2001 1000 false] RecEnv.std 1 =
    (.value [1], none) := by decide +kernel

end Verif
