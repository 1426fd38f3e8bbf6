import Verif.Model.Stats

/-! # C90: the packets of statistics -/

namespace Verif

/-- What became of a packet. -/
inductive Spec.Fate
  | sent | failed | lost | waiting
  deriving DecidableEq

/-- The lines of a packet, and what became of it. -/
abbrev Spec.Parcel := List Bytes × Spec.Fate

def Spec.given (evs : List OutboxEv) : List Bytes := evs.filterMap fun e => match e with | .line l => some l | _ => none

/-- The text of a packet on the wire: its lines with the last byte cut off. -/
def Spec.wire (p : Spec.Parcel) : Bytes := p.1.flatten.dropLast

/-- The account of what became of the lines. -/
structure Spec.Account (t : Outbox) (lines : List Bytes) (ps : List Spec.Parcel) (cur : List Bytes) : Prop where
  whole : ps.flatMap (·.1) ++ cur = lines
  buf : t.buf = cur.flatten
  queue : t.queue = (ps.filter (·.2 = .waiting)).map (·.1.flatten)
  sent : t.sent = (ps.filter fun p => p.2 = .sent ∧ p.1.flatten ≠ []).map Spec.wire
  lost : t.lost = ps.countP (·.2 = .lost)
  small : ∀ p ∈ ps, p.1.flatten.length ≤ t.max ∨ p.1.length = 1
  now : cur.flatten.length ≤ t.max ∨ cur.length = 1

theorem Outbox.flush_max {t u : Outbox} {n : Nat} (h : t.flush n = some u) : u.max = t.max ∧ u.sent = t.sent ∧ u.closed = t.closed ∧ t.closed = false := by
  simp only [Outbox.flush] at h
  split at h
  · cases h
  · next hc => split at h <;> (injection h with h; subst h; exact ⟨rfl, rfl, rfl, by simpa using hc⟩)

/-- The lines `cur` of the buffer become a packet, `l` stay. -/
theorem Outbox.flush_account {t u : Outbox} {lines : List Bytes} {ps : List Spec.Parcel} {cur l : List Bytes} (hb : t.buf = (cur ++ l).flatten)
    (hw : ps.flatMap (·.1) ++ cur = lines) (hq : t.queue = (ps.filter (·.2 = .waiting)).map (·.1.flatten))
    (hs : t.sent = (ps.filter fun p => p.2 = .sent ∧ p.1.flatten ≠ []).map Spec.wire) (hl : t.lost = ps.countP (·.2 = .lost))
    (hm : ∀ p ∈ ps, p.1.flatten.length ≤ t.max ∨ p.1.length = 1) (hn : cur.flatten.length ≤ t.max ∨ cur.length = 1) (hi : l.flatten.length ≤ t.max ∨ l.length = 1)
    (h : t.flush cur.flatten.length = some u) : ∃ f, (f = .waiting ∨ f = .lost) ∧ Spec.Account u (lines ++ l) (ps ++ [(cur, f)]) l := by
  simp only [Outbox.flush] at h
  have e1 : t.buf.take cur.flatten.length = cur.flatten := by rw [hb, List.flatten_append, List.take_left]
  have e2 : t.buf.drop cur.flatten.length = l.flatten := by rw [hb, List.flatten_append, List.drop_left]
  have small : ∀ f, ∀ p ∈ ps ++ [(cur, f)], p.1.flatten.length ≤ t.max ∨ p.1.length = 1 := by
    intro f p hp
    rcases List.mem_append.1 hp with hp | hp
    · exact hm p hp
    · rw [List.mem_singleton] at hp; subst hp; exact hn
  split at h
  · cases h
  · split at h
    · injection h with h; subst h
      exact ⟨.waiting, .inl rfl, by simp [← hw], e2, by rw [e1]; simp [hq], by simp [hs], by simp [hl], small _, hi⟩
    · injection h with h; subst h
      exact ⟨.lost, .inr rfl, by simp [← hw], e2, by simp [hq], by simp [hs], by simp [hl], small _, hi⟩

theorem filter_waiting {ps : List Spec.Parcel} {p : Bytes} {q : List Bytes} (h : (ps.filter (·.2 = .waiting)).map (·.1.flatten) = p :: q) :
    ∃ as l bs, ps = as ++ (l, .waiting) :: bs ∧ l.flatten = p ∧ as.filter (·.2 = .waiting) = [] ∧ (bs.filter (·.2 = .waiting)).map (·.1.flatten) = q := by
  induction ps with
  | nil => cases h
  | cons x xs ih =>
    rw [List.filter_cons] at h
    split at h
    · next hx =>
      rw [List.map_cons] at h
      injection h with h1 h2
      obtain ⟨l, f⟩ := x
      simp only [decide_eq_true_eq] at hx
      subst hx
      exact ⟨[], l, xs, rfl, h1, rfl, h2⟩
    · next hx =>
      obtain ⟨as, l, bs, e1, e2, e3, e4⟩ := ih h
      exact ⟨x :: as, l, bs, by rw [e1]; rfl, e2, by rw [List.filter_cons, if_neg hx, e3], e4⟩

/-- Packets are sent in the order they were made. -/
def Spec.InOrder (ps : List Spec.Parcel) : Prop := ∃ as bs, ps = as ++ bs ∧ (∀ p ∈ as, p.2 ≠ .waiting) ∧ ∀ p ∈ bs, p.2 ≠ .sent ∧ p.2 ≠ .failed

theorem InOrder.snoc {ps : List Spec.Parcel} (h : Spec.InOrder ps) {l : List Bytes} {f : Spec.Fate} (hf : f = .waiting ∨ f = .lost) : Spec.InOrder (ps ++ [(l, f)]) := by
  obtain ⟨as, bs, rfl, h1, h2⟩ := h
  refine ⟨as, bs ++ [(l, f)], by simp, h1, fun p hp => ?_⟩
  rcases List.mem_append.1 hp with hp | hp
  · exact h2 p hp
  · rw [List.mem_singleton] at hp; subst hp
    rcases hf with rfl | rfl <;> simp

theorem filter_none {ps : List Spec.Parcel} {f : Spec.Fate} (h : ∀ p ∈ ps, p.2 ≠ f) : ps.filter (fun p => decide (p.2 = f)) = [] := by
  rw [List.filter_eq_nil_iff]
  intro p hp
  simpa using h p hp

/-- The loop takes the first packet of the queue. -/
theorem Outbox.take_account {t : Outbox} {lines : List Bytes} {ps : List Spec.Parcel} {cur : List Bytes} {p : Bytes} {q : List Bytes} (h : Spec.Account t lines ps cur) (ho : Spec.InOrder ps)
    (hq : t.queue = p :: q) (works : Bool) : ∃ ps', Spec.InOrder ps' ∧ (∀ x ∈ ps', x.2 = .failed → (∃ y ∈ ps, y.2 = .failed) ∨ works = false) ∧
      Spec.Account { t with queue := q, sent := if works && decide (0 < p.length) then t.sent ++ [p.take (p.length - 1)] else t.sent } lines ps' cur := by
  have h1 := h.queue.symm
  rw [hq] at h1
  obtain ⟨as, l, bs, rfl, rfl, e3, e4⟩ := filter_waiting h1
  have hbs : ∀ x ∈ bs, x.2 ≠ .sent ∧ x.2 ≠ .failed := by
    obtain ⟨cs, ds, e, h1, h2⟩ := ho
    intro x hx
    rcases List.append_eq_append_iff.1 e with ⟨es, rfl, e'⟩ | ⟨es, rfl, e'⟩
    · cases es with
      | nil => simp only [List.nil_append] at e'; rw [← e'] at h2; exact h2 x (List.mem_cons_of_mem _ hx)
      | cons y ys =>
        injection e' with e1 e2; subst e1
        exact absurd rfl (h1 (l, .waiting) (by simp))
    · rw [e'] at h2
      exact h2 x (by simp [hx])
  have hsb : bs.filter (fun p => p.2 = .sent ∧ p.1.flatten ≠ []) = [] := by
    rw [List.filter_eq_nil_iff]
    intro x hx
    simp [(hbs x hx).1]
  let f : Spec.Fate := if works then .sent else .failed
  refine ⟨as ++ (l, f) :: bs, ?_, ?_, ?_⟩
  · refine ⟨as ++ [(l, f)], bs, by simp, fun x hx => ?_, hbs⟩
    rcases List.mem_append.1 hx with hx | hx
    · intro hw
      have := List.filter_eq_nil_iff.1 e3 x hx
      simp [hw] at this
    · rw [List.mem_singleton] at hx; subst hx
      cases works <;> simp [f]
  · intro x hx hf
    rcases List.mem_append.1 hx with hx | hx
    · exact .inl ⟨x, by simp [hx], hf⟩
    · rcases List.mem_cons.1 hx with rfl | hx
      · cases works
        · exact .inr rfl
        · simp [f] at hf
      · exact .inl ⟨x, by simp [hx], hf⟩
  · refine ⟨by rw [← h.whole]; simp, h.buf, ?_, ?_, ?_, ?_, h.now⟩
    · cases works <;> simp [f, e3, e4]
    · have := h.sent
      simp only [List.filter_append, List.filter_cons, hsb, List.map_append] at this ⊢
      cases works with
      | false => simpa [f, hsb] using this
      | true =>
        by_cases hp : l.flatten = []
        · simpa [f, hsb, hp] using this
        · have hp' : 0 < l.flatten.length := List.length_pos_iff.2 hp
          simp only [this, f, hp', ← List.dropLast_eq_take]
          simp [Spec.wire, hp]
    · have := h.lost
      simp only [List.countP_append, List.countP_cons] at this ⊢
      cases works <;> simpa [f] using this
    · intro x hx
      rcases List.mem_append.1 hx with hx | hx
      · exact h.small x (by simp [hx])
      · rcases List.mem_cons.1 hx with rfl | hx
        · exact h.small (l, .waiting) (by simp)
        · exact h.small x (by simp [hx])

/-- What the account is of. -/
structure Accounted (t : Outbox) (evs : List OutboxEv) : Prop where
  fine : ∃ ps cur, Spec.Account t (Spec.given evs) ps cur ∧ Spec.InOrder ps ∧ ∀ p ∈ ps, p.2 = .failed → .take false ∈ evs

theorem Accounted.flushAll {t u : Outbox} {evs : List OutboxEv} (h : Accounted t evs) (e : t.flushAll = some u) : Accounted u evs := by
  obtain ⟨ps, cur, ha, ho, hf⟩ := h
  simp only [Outbox.flushAll] at e
  split at e
  · rw [ha.buf] at e
    obtain ⟨f, hne, h1⟩ := Outbox.flush_account (l := []) (by rw [List.append_nil]; exact ha.buf) ha.whole ha.queue ha.sent ha.lost ha.small ha.now (.inl (by simp)) e
    rw [List.append_nil] at h1
    refine ⟨_, _, h1, InOrder.snoc ho hne, fun p hp hpf => ?_⟩
    rcases List.mem_append.1 hp with hp | hp
    · exact hf p hp hpf
    · rw [List.mem_singleton] at hp; subst hp; rcases hne with rfl | rfl <;> cases hpf
  · injection e with e; subst e; exact ⟨ps, cur, ha, ho, hf⟩

theorem given_snoc (evs : List OutboxEv) (e : OutboxEv) : Spec.given (evs ++ [e]) = Spec.given evs ++ (match e with | .line l => [l] | _ => []) := by
  simp only [Spec.given, List.filterMap_append, List.filterMap_cons, List.filterMap_nil]
  cases e <;> rfl

theorem Accounted.step {t u : Outbox} {evs : List OutboxEv} (h : Accounted t evs) (e : OutboxEv) (hs : t.step e = some u) : Accounted u (evs ++ [e]) := by
  have mono : ∀ {v : Outbox} {e : OutboxEv}, (∀ l, e ≠ .line l) → Accounted v evs → Accounted v (evs ++ [e]) := by
    intro v e hne h
    obtain ⟨ps, cur, ha, ho, hf⟩ := h
    have : Spec.given (evs ++ [e]) = Spec.given evs := by
      rw [given_snoc]
      cases e with
      | line l => exact absurd rfl (hne l)
      | _ => simp
    exact ⟨ps, cur, by rw [this]; exact ha, ho, fun p hp hpf => List.mem_append_left _ (hf p hp hpf)⟩
  cases e with
  | line l =>
    obtain ⟨ps, cur, ha, ho, hf⟩ := h
    simp only [Outbox.step, Outbox.add] at hs
    have hg : Spec.given (evs ++ [.line l]) = Spec.given evs ++ [l] := given_snoc ..
    split at hs
    · rw [ha.buf] at hs
      obtain ⟨f, hne, h1⟩ := Outbox.flush_account (t := { t with buf := cur.flatten ++ l }) (l := [l]) (by simp) ha.whole ha.queue ha.sent ha.lost ha.small ha.now (.inr rfl) hs
      refine ⟨_, _, by rw [hg]; exact h1, InOrder.snoc ho hne, fun p hp hpf => ?_⟩
      rcases List.mem_append.1 hp with hp | hp
      · exact List.mem_append_left _ (hf p hp hpf)
      · rw [List.mem_singleton] at hp; subst hp; rcases hne with rfl | rfl <;> cases hpf
    · next hlen =>
      injection hs with hs; subst hs
      refine ⟨ps, cur ++ [l], ⟨by rw [hg, ← ha.whole]; simp, by simp [ha.buf], ha.queue, ha.sent, ha.lost, ha.small, .inl ?_⟩, ho, fun p hp hpf => List.mem_append_left _ (hf p hp hpf)⟩
      rw [ha.buf] at hlen
      simp only [List.flatten_append, List.flatten_singleton]
      omega
  | tick =>
    refine mono (fun _ => nofun) ?_
    simp only [Outbox.step] at hs
    split at hs
    · injection hs with hs; subst hs; exact h
    · exact h.flushAll hs
  | close =>
    refine mono (fun _ => nofun) ?_
    simp only [Outbox.step] at hs
    split at hs
    · injection hs with hs; subst hs; exact h
    · obtain ⟨v, hv, rfl⟩ := Option.map_eq_some_iff.1 hs
      obtain ⟨ps, cur, ha, ho, hf⟩ := h.flushAll hv
      exact ⟨ps, cur, ⟨ha.whole, ha.buf, ha.queue, ha.sent, ha.lost, ha.small, ha.now⟩, ho, hf⟩
  | take works =>
    simp only [Outbox.step] at hs
    split at hs
    · injection hs with hs; subst hs; exact mono (fun _ => nofun) h
    · next p q hq =>
      injection hs with hs; subst hs
      obtain ⟨ps, cur, ha, ho, hf⟩ := h
      obtain ⟨ps', ho', hf', ha'⟩ := Outbox.take_account ha ho hq works
      refine ⟨ps', cur, by rw [given_snoc]; simpa using ha', ho', fun x hx hxf => ?_⟩
      rcases hf' x hx hxf with ⟨y, hy, hyf⟩ | rfl
      · exact List.mem_append_left _ (hf y hy hyf)
      · simp

theorem Accounted.run {evs : List OutboxEv} : ∀ {t u : Outbox} {done : List OutboxEv}, Accounted t done → t.run evs = some u → Accounted u (done ++ evs) := by
  induction evs with
  | nil => intro t u done h e; injection e with e; subst e; rw [List.append_nil]; exact h
  | cons e es ih =>
    intro t u done h hr
    rw [Outbox.run] at hr
    obtain ⟨v, hv, hr⟩ := Option.bind_eq_some_iff.1 hr
    have := ih (h.step e hv) hr
    rwa [List.append_assoc] at this

/-- C90 (partial: as long as no line follows `Unregister`). The lines recorded are cut into packets of whole lines, in order; a packet is no longer than the limit, unless it is a single line. Packets are
sent in that order, each once, without its last byte; one that was made is sent, was met by an error of the socket, is counted as lost, or waits. -/
theorem C90_packets_partial (max room : Nat) (evs : List OutboxEv) (t : Outbox) (h : ({ max, room } : Outbox).run evs = some t) :
    ∃ ps cur, Spec.Account t (Spec.given evs) ps cur ∧ Spec.InOrder ps ∧ ∀ p ∈ ps, p.2 = .failed → .take false ∈ evs := by
  have h0 : Accounted { max, room } [] := ⟨[], [], ⟨rfl, rfl, rfl, rfl, rfl, (by simp), .inl (by simp)⟩, ⟨[], [], rfl, (by simp), by simp⟩, by simp⟩
  exact (h0.run h).fine

/-- C90 (partial: no error of the socket). When all is taken and nothing was counted as lost, what was sent, with the ends of lines put back, is what was recorded. -/
theorem C90_nothing_lost_partial (max room : Nat) (evs : List OutboxEv) (t : Outbox) (h : ({ max, room } : Outbox).run evs = some t) (hq : t.queue = []) (hb : t.buf = []) (hl : t.lost = 0)
    (hf : .take false ∉ evs) (hn : ∀ l ∈ Spec.given evs, l.getLast? = some 10) : (t.sent.map (· ++ [10])).flatten = (Spec.given evs).flatten := by
  obtain ⟨ps, cur, ha, ho, hpf⟩ := C90_packets_partial max room evs t h
  have hall : ∀ p ∈ ps, p.2 = .sent := by
    intro p hp
    have h1 := ha.queue.symm.trans hq
    have h2 := ha.lost.symm.trans hl
    rw [List.map_eq_nil_iff, List.filter_eq_nil_iff] at h1
    rw [List.countP_eq_zero] at h2
    have h3 := h1 p hp
    have h4 := h2 p hp
    have h5 := fun e => hf (hpf p hp e)
    cases hp2 : p.2 <;> simp_all
  rw [ha.sent, ← ha.whole, List.flatten_append, ← ha.buf, hb, List.append_nil]
  have hl : ∀ p ∈ ps, ∀ l ∈ p.1, l.getLast? = some 10 := fun p hp l hl => hn l (by rw [← ha.whole]; exact List.mem_append_left _ (List.mem_flatMap.2 ⟨p, hp, hl⟩))
  clear ha hpf ho
  induction ps with
  | nil => rfl
  | cons p ps ih =>
    have ih := ih (fun p hp => hall p (List.mem_cons_of_mem _ hp)) (fun p hp => hl p (List.mem_cons_of_mem _ hp))
    rw [List.filter_cons, List.flatMap_cons, List.flatten_append, ← ih]
    by_cases hp : p.1.flatten = []
    · simp [hp]
    · rw [if_pos (by simp [hall p (by simp), hp]), List.map_cons, List.map_cons, List.flatten_cons]
      congr 1
      have : p.1.flatten.getLast? = some 10 := by
        cases h1 : p.1.flatten.getLast? with
        | none => exact absurd (List.getLast?_eq_none_iff.1 h1) hp
        | some x =>
          obtain ⟨ys, hys⟩ := List.getLast?_eq_some_iff.1 h1
          have hlast : ∀ (ls : List Bytes) (x : UInt8), (∀ l ∈ ls, l.getLast? = some 10) → ls.flatten.getLast? = some x → x = 10 := by
            intro ls
            induction ls with
            | nil => intro x _ h; cases h
            | cons a as ih =>
              intro x hx h
              rw [List.flatten_cons, List.getLast?_append] at h
              cases hh : as.flatten.getLast? with
              | some y => rw [hh] at h; injection h with h; subst h; exact ih _ (fun l hl => hx l (List.mem_cons_of_mem _ hl)) hh
              | none =>
                rw [hh, Option.none_or, hx a (by simp)] at h
                injection h with h; exact h.symm
          rw [hlast p.1 x (hl p (by simp)) h1]
      obtain ⟨ys, hys⟩ := List.getLast?_eq_some_iff.1 this
      simp [Spec.wire, hys]

/-- Three lines in packets of at most four bytes. -/
example : ∃ t, ({ max := 4, room := 10 } : Outbox).run [.line [1, 10], .line [2, 10], .line [3, 10], .close, .take true, .take true] = some t ∧ t.queue = [] ∧ t.buf = [] ∧ t.lost = 0 ∧
    t.sent = [[1, 10, 2], [3]] := ⟨_, rfl, by decide⟩

/-- C90, violated: once `Unregister` has closed the queue, the line that fills the buffer stops the program. -/
theorem C90_closed_violated (t : Outbox) (hc : t.closed = true) (line : Bytes) (hl : t.max < t.buf.length + line.length) : t.step (.line line) = none := by
  simp only [Outbox.step, Outbox.add, List.length_append]
  rw [if_pos (by omega)]
  simp [Outbox.flush, hc]

example : ∃ t, ({ max := 4, room := 10 } : Outbox).run [.line [1, 10], .close, .line [2, 10], .line [3, 10]] = some t ∧ t.closed = true ∧ t.max < t.buf.length + [4, 10].length := ⟨_, rfl, by decide⟩

/-- C90, violated: a packet that the socket refuses is not counted. -/
theorem C90_uncounted_violated : ∃ t, ({ max := 4, room := 10 } : Outbox).run [.line [1, 10], .tick, .take false, .close] = some t ∧ t.sent = [] ∧ t.lost = 0 ∧ t.queue = [] ∧ t.buf = [] := ⟨_, rfl, by decide⟩

/-- C90, violated: a line longer than a packet can be makes an empty packet, which is counted as lost if the queue is full although nothing is. -/
theorem C90_miscounted_violated : ∃ t, ({ max := 4, room := 1 } : Outbox).run [.line [1, 10], .tick, .line [1, 2, 3, 4, 5, 10], .take true, .tick, .take true] = some t ∧ t.lost = 1 ∧
    t.sent = [[1], [1, 2, 3, 4, 5]] ∧ t.queue = [] ∧ t.buf = [] := ⟨_, rfl, by decide⟩

/-- The tags of a line as written: names and values, separated. -/
def Spec.tagText (style : TagStyle) (tags : List StatTag) : Bytes :=
  if tags = [] then [] else style.first ++ List.intercalate [style.other] (tags.map fun t => t.1 ++ [style.keyValue] ++ t.2)

theorem intercalate_two {sep : Bytes} {a b : List Bytes} (ha : a ≠ []) (hb : b ≠ []) : List.intercalate sep (a ++ b) = List.intercalate sep a ++ sep ++ List.intercalate sep b := by
  induction a with
  | nil => exact absurd rfl ha
  | cons x xs ih =>
    cases xs with
    | nil =>
      cases b with
      | nil => exact absurd rfl hb
      | cons y ys => simp [List.intercalate]
    | cons y ys =>
      have := ih (by simp)
      simp only [List.intercalate, List.cons_append, List.intersperse_cons_cons, List.flatten_cons] at this ⊢
      rw [this]; simp

theorem tagLoop_eq (style : TagStyle) (tags : List StatTag) : ∀ (i : Nat) (more : List StatTag) (buf : Bytes), tags ≠ [] →
    tagLoop style (i + tags.length + more.length) i tags buf =
      buf ++ List.intercalate [style.other] (tags.map fun t => t.1 ++ [style.keyValue] ++ t.2) ++ (if more = [] then [] else [style.other]) := by
  induction tags with
  | nil => intro _ _ _ h; exact absurd rfl h
  | cons a as ih =>
    intro i more buf _
    cases as with
    | nil =>
      simp only [tagLoop, List.length_singleton, StatTag.append]
      cases more with
      | nil => simp [List.intercalate]
      | cons m ms => simp [List.intercalate]; omega
    | cons b bs =>
      rw [tagLoop]
      have e : i + (a :: b :: bs).length + more.length = (i + 1) + (b :: bs).length + more.length := by simp only [List.length_cons]; omega
      rw [e, if_pos (by simp only [List.length_cons]; omega), ih _ more _ (by simp)]
      simp [StatTag.append, List.intercalate]

/-- C90 (2). The tags of a line are all written, once, in order: first the default ones. -/
theorem C90_tags (style : TagStyle) (defaults tags : List StatTag) (buf : Bytes) : formatTags style defaults tags buf = buf ++ Spec.tagText style (defaults ++ tags) := by
  simp only [formatTags, Spec.tagText]
  by_cases hd : defaults = []
  · subst hd
    by_cases ht : tags = []
    · subst ht; simp
    · rw [if_neg (by have := List.length_pos_iff.2 ht; simp; omega)]
      have := tagLoop_eq style tags 0 [] (buf ++ style.first) ht
      simp only [List.length_nil, Nat.add_zero] at this
      simp only [List.length_nil, tagLoop, List.nil_append, this]
      simp [ht]
  · have hpos := List.length_pos_iff.2 hd
    rw [if_neg (by omega), if_neg (by simp [hd])]
    have h1 := tagLoop_eq style defaults 0 tags (buf ++ style.first) hd
    rw [Nat.zero_add] at h1
    rw [h1]
    by_cases ht : tags = []
    · subst ht; simp [tagLoop]
    · have h2 := tagLoop_eq style tags defaults.length [] (buf ++ style.first ++ List.intercalate [style.other] (defaults.map fun t => t.1 ++ [style.keyValue] ++ t.2) ++ [style.other]) ht
      simp only [List.length_nil, Nat.add_zero] at h2
      rw [if_neg ht, h2]
      rw [List.map_append, intercalate_two (by simpa using hd) (by simpa using ht)]
      simp

/-- C90 (3). A line is put behind the buffer, whatever the buffer holds, and ends with an end of line. -/
theorem C90_line (style : TagStyle) (pre : Bytes) (defaults : List StatTag) (stat value kind : Bytes) (tags : List StatTag) (buf : Bytes) :
    statLine style pre defaults stat value kind tags buf = buf ++ pre ++ stat ++ (if style.suffix then [] else Spec.tagText style (defaults ++ tags)) ++ [58] ++ value ++ kind ++
      (if style.suffix then Spec.tagText style (defaults ++ tags) else []) ++ [10] ∧
    timingLine style pre defaults stat value tags buf = buf ++ pre ++ (if style.suffix then [] else Spec.tagText style (defaults ++ tags)) ++ [32] ++ stat ++ [style.keyValue] ++ value ++
      (if style.suffix then Spec.tagText style (defaults ++ tags) else []) ++ [10] := by
  simp only [statLine, timingLine, C90_tags]
  cases style.suffix <;> simp

/-- trace,status=200 conn_time_ns=5 -/
example : timingLine influxStyle [116, 114, 97, 99, 101] [] [99] [53] [([115], [50, 48, 48])] [] = [116, 114, 97, 99, 101, 44, 115, 61, 50, 48, 48, 32, 99, 61, 53, 10] := by decide

end Verif
