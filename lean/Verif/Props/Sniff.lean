import Verif.Model.Sniff
import Verif.Props.Patricia

/-!
# C87: the protocol that gets a connection gets all of its bytes
-/

namespace Verif

/-- The bytes of a client. -/
def Spec.bytesOf (s : RdSource) : Bytes := s.flatMap (·.1)

/-- Every read returns bytes or an error, not both. -/
def Spec.Separate (s : RdSource) : Prop := ∀ r ∈ s, (r.1 ≠ [] ∧ r.2 = none) ∨ (r.1 = [] ∧ r.2 ≠ none)

instance (s : RdSource) : Decidable (Spec.Separate s) := inferInstanceAs (Decidable (∀ r ∈ s, _))

/-- A connection after which `seen` was read; a piece may be read in part. -/
inductive Spec.After (s : RdSource) : (seen : Bytes) → (rest : RdSource) → Prop
  | whole {before rest : RdSource} : s = before ++ rest → Spec.After s (Spec.bytesOf before) rest
  | part {before later : RdSource} {x y : Bytes} : s = before ++ (x ++ y, none) :: later → y ≠ [] → Spec.After s (Spec.bytesOf before ++ x) ((y, none) :: later)

/-- The same connection told again: the bytes up to some point in one piece, then everything else as it came. -/
def Spec.Retold (s s' : RdSource) : Prop := ∃ seen rest, Spec.After s seen rest ∧ s' = if seen = [] then rest else (seen, none) :: rest

theorem bytesOf_append (a b : RdSource) : Spec.bytesOf (a ++ b) = Spec.bytesOf a ++ Spec.bytesOf b := by simp [Spec.bytesOf]

theorem Spec.After.bytes {s : RdSource} {seen : Bytes} {rest : RdSource} (h : Spec.After s seen rest) : seen ++ Spec.bytesOf rest = Spec.bytesOf s := by
  cases h with
  | whole e => rw [e, bytesOf_append]
  | part e _ => rw [e, bytesOf_append]; simp [Spec.bytesOf]

theorem Spec.Retold.bytes {s s' : RdSource} (h : Spec.Retold s s') : Spec.bytesOf s' = Spec.bytesOf s := by
  obtain ⟨seen, rest, h, rfl⟩ := h
  rw [← h.bytes]
  split
  · next e => rw [e]; rfl
  · rfl

theorem Spec.After.separate {s : RdSource} (hs : Spec.Separate s) {seen : Bytes} {rest : RdSource} (h : Spec.After s seen rest) : Spec.Separate rest := by
  cases h with
  | whole e => intro r hr; exact hs r (by rw [e]; exact List.mem_append_right _ hr)
  | part e hy =>
    intro r hr
    rcases List.mem_cons.1 hr with rfl | hr
    · exact .inl ⟨hy, rfl⟩
    · exact hs r (by rw [e]; simp [hr])

/-- One more read. -/
theorem Spec.After.read {s : RdSource} (hs : Spec.Separate s) {seen : Bytes} {rest : RdSource} (h : Spec.After s seen rest) (n : Nat) :
    Spec.After s (seen ++ (RdSource.read n rest).1.1) (RdSource.read n rest).2 := by
  have hr := h.separate hs
  cases hc : rest with
  | nil => subst hc; simpa [RdSource.read] using h
  | cons p later =>
    obtain ⟨d, e⟩ := p
    subst hc
    simp only [RdSource.read]
    split
    · simp only
      cases h with
      | whole e1 =>
        rename_i before
        have : Spec.bytesOf before ++ d = Spec.bytesOf (before ++ [(d, e)]) := by simp [Spec.bytesOf]
        rw [this]
        exact .whole (by simp [e1])
      | part e1 hy =>
        rename_i before x
        have : Spec.bytesOf before ++ x ++ d = Spec.bytesOf (before ++ [(x ++ d, none)]) := by simp [Spec.bytesOf]
        rw [this]
        exact .whole (by simp [e1])
    · next hn =>
      simp only
      have hd : d.drop n ≠ [] := by
        intro h0
        have := congrArg List.length h0
        simp only [List.length_drop, List.length_nil] at this
        omega
      have he : e = none := by
        rcases hr (d, e) (by simp) with h1 | h1
        · exact h1.2
        · simp only at h1; rw [h1.1] at hn; simp at hn
      subst he
      cases h with
      | whole e1 => exact .part (by rw [List.take_append_drop]; exact e1) hd
      | part e1 hy =>
        rw [List.append_assoc]
        exact .part (by rw [List.append_assoc, List.take_append_drop]; exact e1) hd

/-- A wrapped connection of which `s` is the wrapped one. -/
structure Wraps (s : RdSource) (w : SniffStream) : Prop where
  after : Spec.After s w.buffer w.source
  size : w.bufferSize ≤ w.buffer.length
  read : w.bufferRead ≤ w.bufferSize
  err : w.lastErr = none

/-- What a wrapped connection yields next. -/
def SniffStream.view (w : SniffStream) : RdSource :=
  if (w.buffer.take w.bufferSize).drop w.bufferRead = [] then w.source else ((w.buffer.take w.bufferSize).drop w.bufferRead, none) :: w.source

theorem SniffStream.view_read {w : SniffStream} (hz : w.bufferRead < w.bufferSize → w.bufferSize ≤ w.buffer.length) (hr : w.bufferRead ≤ w.bufferSize) (he : w.lastErr = none) (n : Nat) :
    (w.read n).1 = (RdSource.read n w.view).1 ∧ (w.read n).2.view = (RdSource.read n w.view).2 := by
  obtain ⟨b, hb⟩ : ∃ b, b = (w.buffer.take w.bufferSize).drop w.bufferRead := ⟨_, rfl⟩
  have hlen : b.length = w.bufferSize - w.bufferRead := by
    rw [hb]; simp only [List.length_drop, List.length_take]
    by_cases hc : w.bufferRead < w.bufferSize
    · have := hz hc; omega
    · omega
  by_cases hc : w.bufferSize > w.bufferRead
  · have hne : b ≠ [] := by intro h0; rw [h0] at hlen; simp at hlen; omega
    have hv : w.view = (b, none) :: w.source := by rw [SniffStream.view, ← hb, if_neg hne]
    rw [hv, SniffStream.read, if_pos hc]
    simp only [RdSource.read, ← hb, he]
    by_cases h1 : b.length ≤ n
    · rw [if_pos h1, List.take_of_length_le h1]
      refine ⟨rfl, ?_⟩
      rw [SniffStream.view]
      simp only
      rw [if_pos]
      rw [List.drop_eq_nil_iff]
      simp; omega
    · rw [if_neg h1]
      refine ⟨rfl, ?_⟩
      rw [SniffStream.view]
      simp only [← List.drop_drop, ← hb]
      have e : (b.take n).length = n := by rw [List.length_take]; omega
      rw [e, if_neg]
      rw [List.drop_eq_nil_iff]; omega
  · have h0 : b = [] := List.length_eq_zero_iff.mp (by omega)
    have hv : w.view = w.source := by rw [SniffStream.view, ← hb, if_pos h0]
    rw [hv, SniffStream.read, if_neg hc]
    have hd : ∀ l : Bytes, (l.take w.bufferSize).drop w.bufferRead = [] := by intro l; rw [List.drop_eq_nil_iff]; simp; omega
    by_cases hs : w.sniffing = true
    · simp only [hs, if_true]
      split <;> refine ⟨rfl, ?_⟩ <;> simp only [SniffStream.view, hd, if_true]
    · simp only [hs, Bool.false_eq_true, if_false, and_false]
      refine ⟨trivial, ?_⟩
      simp only [SniffStream.view, hd, if_true]

/-- Reading while a matcher reads. -/
theorem Wraps.step {s : RdSource} (hs : Spec.Separate s) {w : SniffStream} (h : Wraps s w) (hn : w.sniffing = true) (n : Nat) :
    Wraps s (w.read n).2 ∧ (w.read n).2.sniffing = true := by
  rw [SniffStream.read]
  split
  · next hc =>
    refine ⟨⟨h.after, h.size, ?_, h.err⟩, hn⟩
    have := h.size
    simp only [List.length_take, List.length_drop]
    omega
  · next hc =>
    simp only [hn, and_true]
    have ha := h.after.read hs n
    split
    · next hl =>
      refine ⟨⟨ha, by have := h.size; simp; omega, h.read, ?_⟩, rfl⟩
      simp only
      cases hsrc : w.source with
      | nil => rw [hsrc] at hl; simp [RdSource.read] at hl
      | cons p later =>
        have := h.after.separate hs p (by rw [hsrc]; simp)
        rw [hsrc] at hl
        obtain ⟨d, e⟩ := p
        simp only [RdSource.read] at hl ⊢
        split
        · next h1 =>
          rw [if_pos h1] at hl
          rcases this with h2 | h2
          · exact h2.2
          · simp only at h2 hl; rw [h2.1] at hl; simp at hl
        · rfl
    · next hl =>
      refine ⟨⟨?_, h.size, h.read, h.err⟩, rfl⟩
      have e : (RdSource.read n w.source).1.1 = [] := List.length_eq_zero_iff.mp (by omega)
      rw [e, List.append_nil] at ha
      exact ha

theorem Wraps.matcher {s : RdSource} (hs : Spec.Separate s) (m : Matcher) : ∀ {w : SniffStream}, Wraps s w → w.sniffing = true →
    (m.run w).1 = m.on w.view ∧ Wraps s (m.run w).2 ∧ (m.run w).2.sniffing = true := by
  induction m with
  | decide b => intro w h hn; exact ⟨rfl, h, hn⟩
  | read n next ih =>
    intro w h hn
    obtain ⟨h1, h2⟩ := h.step hs hn n
    obtain ⟨e1, e2⟩ := w.view_read (fun _ => h.size) h.read h.err n
    obtain ⟨h3, h4⟩ := ih (w.read n).1 h1 h2
    refine ⟨?_, h4⟩
    rw [Matcher.run, h3, Matcher.on, e2, e1]

theorem Wraps.retold {s : RdSource} {w : SniffStream} (h : Wraps s w) (b : Bool) : Wraps s (w.reset b) ∧ Spec.Retold s (w.reset b).view := by
  refine ⟨⟨h.after, Nat.le_refl _, Nat.zero_le _, h.err⟩, w.buffer, w.source, h.after, ?_⟩
  simp [SniffStream.view, SniffStream.reset]

theorem sniffAll_spec {s : RdSource} (hs : Spec.Separate s) (ms : List Matcher) : ∀ (i : Nat) {w : SniffStream}, Wraps s w →
    (∀ j w', sniffAll ms i w = some (j, w') → i ≤ j ∧ (∃ m s', ms[j - i]? = some m ∧ Spec.Retold s s' ∧ m.on s' = true) ∧
      (∀ k < j - i, ∃ m s', ms[k]? = some m ∧ Spec.Retold s s' ∧ m.on s' = false) ∧ Wraps s w' ∧ Spec.Retold s w'.view) ∧
    (sniffAll ms i w = none → ∀ m ∈ ms, ∃ s', Spec.Retold s s' ∧ m.on s' = false) := by
  induction ms with
  | nil => intro i w h; exact ⟨fun j w' e => (by cases e), fun _ m hm => (by simp at hm)⟩
  | cons m ms ih =>
    intro i w h
    obtain ⟨h1, h2⟩ := h.retold true
    obtain ⟨h3, h4, _⟩ := Wraps.matcher hs m h1 rfl
    obtain ⟨h5, h6⟩ := ih (i + 1) h4
    constructor
    · intro j w' e
      rw [sniffAll] at e
      split at e
      · next ht =>
        injection e with e; injection e with e1 e2
        subst e1; subst e2
        refine ⟨Nat.le_refl _, ⟨m, _, by simp, h2, h3 ▸ ht⟩, fun k hk => (by omega), h4.retold false⟩
      · next ht =>
        obtain ⟨g1, ⟨m', s', g2, g3⟩, g4, g5⟩ := h5 j w' e
        refine ⟨by omega, ⟨m', s', ?_, g3⟩, ?_, g5⟩
        · have : j - i = (j - (i + 1)) + 1 := by omega
          rw [this, List.getElem?_cons_succ]; exact g2
        · intro k hk
          cases k with
          | zero => exact ⟨m, _, rfl, h2, by rw [← h3]; simpa using ht⟩
          | succ k => exact g4 k (by omega)
    · intro e m' hm'
      rw [sniffAll] at e
      split at e
      · cases e
      · next ht =>
        rcases List.mem_cons.1 hm' with rfl | hm'
        · exact ⟨_, h2, by rw [← h3]; simpa using ht⟩
        · exact h6 e m' hm'

theorem view_reads (ns : List Nat) : ∀ {w : SniffStream}, (w.bufferRead < w.bufferSize → w.bufferSize ≤ w.buffer.length) → w.bufferRead ≤ w.bufferSize →
    w.lastErr = none → w.sniffing = false → w.reads ns = RdSource.reads ns w.view := by
  induction ns with
  | nil => intros; rfl
  | cons n ns ih =>
    intro w hz hr he hn
    obtain ⟨e1, e2⟩ := w.view_read hz hr he n
    rw [SniffStream.reads, RdSource.reads, e1, ← e2]
    congr 1
    apply ih
    all_goals rw [SniffStream.read]; split
    · intro _
      next hc _ => exact hz hc
    · next hc => simp only [hn, Bool.false_eq_true, if_false, and_false]; intro h; omega
    · simp only [List.length_take, List.length_drop]; omega
    · simp only [hn, Bool.false_eq_true, if_false, and_false]; exact hr
    · exact he
    · simp only [hn, Bool.false_eq_true, if_false, and_false]; exact he
    · exact hn
    · simp only [hn, Bool.false_eq_true, if_false, and_false]

theorem sniffAll_off {ms : List Matcher} : ∀ {i : Nat} {w : SniffStream} {r : Nat × SniffStream}, sniffAll ms i w = some r → r.2.sniffing = false := by
  induction ms with
  | nil => intro i w r h; cases h
  | cons m ms ih =>
    intro i w r h
    rw [sniffAll] at h
    split at h
    · injection h with h; subst h; rfl
    · exact ih h

/-- C87 (partial: no read of the connection returns bytes and an error at once). The connection goes to the first protocol whose matcher accepts it, each
matcher reads it from its first byte, and so does the protocol: reads of any sizes return what they would have returned from the connection itself,
with all of its bytes, had nobody looked before. -/
theorem C87_handed_partial (ms : List Matcher) (s : RdSource) (hs : Spec.Separate s) (i : Nat) (w : SniffStream) (h : sniffServe ms s = some (i, w)) :
    (∃ m s', ms[i]? = some m ∧ Spec.Retold s s' ∧ m.on s' = true) ∧ (∀ k < i, ∃ m s', ms[k]? = some m ∧ Spec.Retold s s' ∧ m.on s' = false) ∧
      ∃ s', Spec.Retold s s' ∧ Spec.bytesOf s' = Spec.bytesOf s ∧ ∀ sizes, w.reads sizes = RdSource.reads sizes s' := by
  obtain ⟨h1, _⟩ := sniffAll_spec hs ms 0 (w := { source := s }) ⟨.whole (before := []) rfl, Nat.le_refl _, Nat.le_refl _, rfl⟩
  obtain ⟨_, h2, h3, h4, h5⟩ := h1 i w h
  refine ⟨h2, h3, w.view, h5, h5.bytes, fun ns => view_reads ns (fun _ => h4.size) h4.read h4.err (sniffAll_off h)⟩

/-- C87: a connection is closed if every matcher, reading it from its first byte, refuses it. -/
theorem C87_closed_partial (ms : List Matcher) (s : RdSource) (hs : Spec.Separate s) (h : sniffServe ms s = none) :
    ∀ m ∈ ms, ∃ s', Spec.Retold s s' ∧ m.on s' = false :=
  (sniffAll_spec hs ms 0 (w := { source := s }) ⟨.whole (before := []) rfl, Nat.le_refl _, Nat.le_refl _, rfl⟩).2 h

/-- The bytes a client sends before the first error. -/
def Spec.early (s : RdSource) : Bytes := (s.takeWhile (·.2 == none)).flatMap (·.1)

theorem read_early {s : RdSource} (hs : Spec.Separate s) {n : Nat} (hn : 0 < n) :
    ((RdSource.read n s).1.2 = none → (RdSource.read n s).1.1 ≠ [] ∧ (RdSource.read n s).1.1.length ≤ n ∧
      (RdSource.read n s).1.1 ++ Spec.early (RdSource.read n s).2 = Spec.early s ∧ Spec.Separate (RdSource.read n s).2) ∧
    ((RdSource.read n s).1.2 ≠ none → (RdSource.read n s).1.1 = [] ∧ Spec.early s = []) := by
  cases s with
  | nil => exact ⟨fun h => (by cases h), fun _ => ⟨rfl, rfl⟩⟩
  | cons p later =>
    obtain ⟨d, e⟩ := p
    have hl : Spec.Separate later := fun r hr => hs r (List.mem_cons_of_mem _ hr)
    simp only [RdSource.read]
    split
    · next h1 =>
      rcases hs (d, e) (by simp) with h2 | h2
      · simp only at h2
        obtain ⟨h2, rfl⟩ := h2
        refine ⟨fun _ => ⟨h2, h1, by simp [Spec.early], hl⟩, fun h => absurd rfl h⟩
      · simp only at h2
        refine ⟨fun h => absurd h h2.2, fun _ => ⟨h2.1, ?_⟩⟩
        cases e with
        | none => exact absurd rfl h2.2
        | some x => rfl
    · next h1 =>
      have he : e = none := by
        rcases hs (d, e) (by simp) with h2 | h2
        · exact h2.2
        · simp only at h2; rw [h2.1] at h1; simp at h1
      subst he
      have hd : d.drop n ≠ [] := by
        intro h0
        have := congrArg List.length h0
        simp only [List.length_drop, List.length_nil] at this
        omega
      refine ⟨fun _ => ⟨?_, ?_, ?_, ?_⟩, fun h => absurd rfl h⟩
      · intro h0
        have := congrArg List.length h0
        simp only [List.length_take, List.length_nil] at this
        omega
      · rw [List.length_take]; omega
      · simp only [Spec.early, List.takeWhile_cons, beq_self_eq_true, if_true, List.flatMap_cons]
        rw [← List.append_assoc, List.take_append_drop]
      · intro r hr
        rcases List.mem_cons.1 hr with rfl | hr
        · exact .inl ⟨hd, rfl⟩
        · exact hl r hr

theorem readFull_on (f : Bytes → Bool) (reads : Nat) : ∀ (n : Nat) (got : Bytes) {s : RdSource}, Spec.Separate s → got.length ≤ n → n ≤ got.length + reads →
    (Matcher.readFull f reads n got).on s = f ((got ++ Spec.early s).take n) := by
  induction reads with
  | zero =>
    intro n got s _ h1 h2
    have : n = got.length := by omega
    rw [Matcher.readFull, Matcher.on, this, List.take_left']
    rfl
  | succ reads ih =>
    intro n got s hs h1 h2
    rw [Matcher.readFull]
    split
    · next hlt =>
      obtain ⟨g1, g2⟩ := read_early hs (n := n - got.length) (by omega)
      rw [Matcher.on]
      split
      · next he =>
        obtain ⟨k1, k2, k3, k4⟩ := g1 he
        have := List.length_pos_iff.2 k1
        rw [ih n _ k4 (by rw [List.length_append]; omega) (by rw [List.length_append]; omega), List.append_assoc, k3]
      · next x he =>
        obtain ⟨k1, k2⟩ := g2 (by rw [he]; simp)
        rw [Matcher.on, k1, k2, List.append_nil, List.take_of_length_le h1]
    · next hlt =>
      have : n = got.length := by omega
      rw [Matcher.on, this, List.take_left']
      rfl

/-- C87: what the matcher of websockets accepts: the clients that begin with one of the words before the connection has an error. -/
theorem C87_words (strs : List Bytes) (hne : strs ≠ []) (s : RdSource) (hs : Spec.Separate s) :
    (matchWS strs).on s = true ↔ ∃ w ∈ strs, w <+: Spec.early s := by
  rw [matchWS, readFull_on _ _ _ _ hs (Nat.zero_le _) (by simp), List.nil_append, ← C56_prefix_partial strs hne]
  simp [PtTree.matchPrefix, List.take_take]

/-- C87: what the matcher of HTTP/2 accepts. -/
theorem C87_preface (s : RdSource) (hs : Spec.Separate s) : (matchPreface http2Preface.length []).on s = true ↔ http2Preface <+: Spec.early s := by
  suffices H : ∀ (reads : Nat) (got : Bytes) {s : RdSource}, Spec.Separate s → got = http2Preface.take got.length → got.length < http2Preface.length →
      http2Preface.length ≤ got.length + reads → ((matchPreface reads got).on s = true ↔ http2Preface <+: got ++ Spec.early s) by
    exact H _ [] hs rfl (by decide +kernel) (by simp)
  intro reads
  induction reads with
  | zero => intro got s _ _ h2 h3; omega
  | succ reads ih =>
    intro got s hs h1 h2 h3
    obtain ⟨g1, g2⟩ := read_early hs (n := http2Preface.length - got.length) (by omega)
    rw [matchPreface, Matcher.on]
    split
    · next x he =>
      obtain ⟨k1, k2⟩ := g2 (by rw [he]; simp)
      rw [Matcher.on, k2, List.append_nil]
      constructor
      · intro h; cases h
      · intro h; have := h.length_le; omega
    · next he =>
      obtain ⟨k1, k2, k3, k4⟩ := g1 he
      generalize (RdSource.read (http2Preface.length - got.length) s).1.1 = d at k1 k2 k3
      generalize (RdSource.read (http2Preface.length - got.length) s).2 = r at k3 k4
      rw [← k3, ← List.append_assoc]
      have := List.length_pos_iff.2 k1
      simp only
      have key : http2Preface <+: (got ++ d) ++ Spec.early r → got ++ d = http2Preface.take (got ++ d).length := by
        intro h
        have h4 : (got ++ d) <+: (got ++ d) ++ Spec.early r := List.prefix_append _ _
        have h5 := List.prefix_of_prefix_length_le h4 h (by rw [List.length_append]; omega)
        exact List.prefix_iff_eq_take.1 h5
      split
      · next hl =>
        rw [Matcher.on, decide_eq_true_eq]
        refine ⟨fun h => ?_, key⟩
        rw [hl, List.take_length] at h
        rw [h]; exact List.prefix_append _ _
      · next hl =>
        split
        · next hq =>
          rw [Matcher.on]
          exact ⟨fun h => (by cases h), fun h => absurd (key h) hq⟩
        · next hq =>
          have hq := Classical.not_not.1 hq
          rw [List.length_append] at hl
          exact ih _ k4 hq (by rw [List.length_append]; omega) (by rw [List.length_append]; omega)

/-- The protocols of the server in their order (service.go:155-156): websockets, then its own. -/
def serverProtos : List Matcher := [matchWS ["GET".toUTF8.toList], matchAny]

/-- C87: no connection is turned away; those that begin with `GET` before an error are websockets, the others speak the server's own protocol, and both
yield all bytes of the client. -/
theorem C87_server_partial (s : RdSource) (hs : Spec.Separate s) :
    ∃ w, sniffServe serverProtos s = some (if "GET".toUTF8.toList <+: Spec.early s then 0 else 1, w) ∧
      ∃ s', Spec.Retold s s' ∧ Spec.bytesOf s' = Spec.bytesOf s ∧ ∀ sizes, w.reads sizes = RdSource.reads sizes s' := by
  have W : Wraps s { source := s } := ⟨.whole (before := []) rfl, Nat.le_refl _, Nat.le_refl _, rfl⟩
  obtain ⟨h1, h2⟩ := W.retold true
  obtain ⟨h3, _⟩ := Wraps.matcher hs (matchWS ["GET".toUTF8.toList]) h1 rfl
  have hv : (SniffStream.reset true { source := s }).view = s := rfl
  rw [hv] at h3
  have hw := C87_words ["GET".toUTF8.toList] (by simp) s hs
  simp only [List.mem_singleton, exists_eq_left] at hw
  by_cases hg : "GET".toUTF8.toList <+: Spec.early s
  · have e : ∃ w, sniffServe serverProtos s = some (0, w) := by
      simp only [sniffServe, serverProtos, sniffAll, h3, hw.2 hg, if_true]
      exact ⟨_, rfl⟩
    obtain ⟨w, e⟩ := e
    exact ⟨w, by rw [if_pos hg, e], (C87_handed_partial serverProtos s hs 0 w e).2.2⟩
  · have hf : (matchWS ["GET".toUTF8.toList]).on s = false := by
      rw [← Bool.not_eq_true, hw]; exact hg
    have e : ∃ w, sniffServe serverProtos s = some (1, w) := by
      simp only [sniffServe, serverProtos, sniffAll, h3, hf, Bool.false_eq_true, if_false, matchAny, Matcher.run, if_true]
      exact ⟨_, rfl⟩
    obtain ⟨w, e⟩ := e
    exact ⟨w, by rw [if_neg hg, e], (C87_handed_partial serverProtos s hs 1 w e).2.2⟩

/-- A client of the server's own protocol whose first packet comes in two pieces, with a timeout in between. -/
def toyPieces : RdSource := [([16, 3], none), ([], some 1), ([1, 2, 3, 71], none)]

example : Spec.Separate toyPieces ∧ ¬ "GET".toUTF8.toList <+: Spec.early toyPieces ∧
    (sniffServe serverProtos toyPieces).map (fun x => (x.1, x.2.reads [1, 5, 3, 9])) = some (1, [([16], none), ([3], none), ([1, 2, 3], none), ([71], none)]) := by
  decide +kernel

example : Spec.Separate [("GE".toUTF8.toList, none), ("T / HTTP/1.1".toUTF8.toList, none)] ∧
    (sniffServe serverProtos [("GE".toUTF8.toList, none), ("T / HTTP/1.1".toUTF8.toList, none)]).map (fun x => (x.1, x.2.reads [2, 9, 9])) =
      some (0, [("GE".toUTF8.toList, none), ("T ".toUTF8.toList, none), ("/ HTTP/1.".toUTF8.toList, none)]) := by decide +kernel

/-- The preface of HTTP/2 in two pieces, and a client that hangs up in the middle of it. -/
example : (matchPreface http2Preface.length []).on [(http2Preface.take 7, none), (http2Preface.drop 7 ++ [0, 0], none)] = true ∧
    (matchPreface http2Preface.length []).on [(http2Preface.take 7, none), ([], some rdEof), (http2Preface.drop 7, none)] = false ∧
    Spec.Separate [(http2Preface.take 7, none), ([], some rdEof), (http2Preface.drop 7, none)] := by decide +kernel

/-- Two protocols of which neither is spoken. -/
example : sniffServe [matchWS ["GET".toUTF8.toList, "PUT".toUTF8.toList], matchPreface http2Preface.length []] toyPieces = none := by decide +kernel

/-- The error is kept and returned with each of the first bytes: a reader that stops at an error, as `io.ReadFull` does, gets one byte of three. -/
theorem C87_error_violated : (sniffServe serverProtos [("GET".toUTF8.toList, some rdEof)]).map (fun x => (x.1, x.2.reads [1, 1, 1])) =
    some (0, [([71], some rdEof), ([69], some rdEof), ([84], some rdEof)]) ∧
    RdSource.reads [1, 1, 1] [("GET".toUTF8.toList, some rdEof)] = [([71], none), ([69], none), ([84], some rdEof)] := by decide +kernel

end Verif
