import Verif.Model.Failover
import Verif.Props.Ring

/-!
# The nodes of a cluster agree on its ring
-/

namespace Verif

variable {α σ : Type} [LinearOrder α]

/-- How often in a row, up to the latest, a call of `i` to `j` failed since `i` started; `seen` is the latest first. -/
def Spec.misses (i j : α) : List (FoSeen α σ) → Nat
  | [] => 0
  | .started i' :: h => if i' = i then 0 else Spec.misses i j h
  | .stopped _ :: h => Spec.misses i j h
  | .called a b _ ok :: h => if a = i ∧ b = j then (if ok then 0 else Spec.misses i j h + 1) else Spec.misses i j h
  | .heard _ _ _ :: h => Spec.misses i j h

/-- The pings that `i` accepted since it started or last made a call itself, the latest first. -/
def Spec.accepts (i : α) : List (FoSeen α σ) → List (FoPing α σ)
  | [] => []
  | .started i' :: h => if i' = i then [] else Spec.accepts i h
  | .stopped _ :: h => Spec.accepts i h
  | .called a _ _ _ :: h => if a = i then [] else Spec.accepts i h
  | .heard a p _ :: h => if a = i then p :: Spec.accepts i h else Spec.accepts i h

/-- `i` has not rebuilt its ring at another node's request since it started. -/
def Spec.OwnRing (i : α) : List (FoSeen α σ) → Prop
  | [] => True
  | .started i' :: h => i' = i ∨ Spec.OwnRing i h
  | .stopped _ :: h => Spec.OwnRing i h
  | .called _ _ _ _ :: h => Spec.OwnRing i h
  | .heard a _ rebuilt :: h => (a = i → rebuilt = false) ∧ Spec.OwnRing i h

/-- The ring of a list of nodes. -/
def Spec.ringOf (c : FoSettings α σ) (nodes : List α) : HashRing α := (HashRing.new α c.replicas).addAll c.hash [nodes]

/-- The orders in which Go visits the map of nodes contain each node once. -/
def Spec.Visits (names : List α) : FoEvent α → Prop
  | .tick i _ _ visit _ => visit.Perm (names.filter (· ≠ i))
  | .restart i visit => visit.Perm (names.filter (· ≠ i))
  | _ => True

/-- A ping tells the truth: its signature is that of the ring of the nodes it lists. -/
def Spec.Truthful (c : FoSettings α σ) (p : FoPing α σ) : Prop := p.signature = c.sign (Spec.ringOf c p.nodes).keys

section
variable (c : FoSettings α σ)

theorem ringOf_eq (nodes : List α) : Spec.ringOf c nodes = (HashRing.new α c.replicas).add c.hash nodes := rfl

theorem ringOf_perm {a b : List α} (h : a.Perm b) : Spec.ringOf c a = Spec.ringOf c b := by
  refine C55_order_independent c.hash c.replicas [a] [b] ?_
  simpa using h

theorem rehash_ring (f : FoNode α) {nodes : List α} (h : nodes ≠ []) : (f.rehash c nodes).ring = Spec.ringOf c nodes := by
  simp [FoNode.rehash, ringOf_eq, h]

theorem putAt_self {β : Type} (f : α → β) (i : α) (v : β) : putAt f i v i = v := by simp [putAt]

theorem putAt_ne {β : Type} (f : α → β) {i j : α} (v : β) (h : j ≠ i) : putAt f i v j = f j := by simp [putAt, h]

theorem misses_calls (i j : α) (p : FoPing α σ) (ok : α → Bool) (h : List (FoSeen α σ)) (k : α) :
    ∀ peers : List α, peers.Nodup → Spec.misses i j (peers.map (fun x => FoSeen.called k x p (ok x)) ++ h) =
      if k = i ∧ j ∈ peers then (if ok j then 0 else Spec.misses i j h + 1) else Spec.misses i j h := by
  intro peers
  induction peers with
  | nil => intro _; simp
  | cons a rest ih =>
    intro hn
    obtain ⟨hn1, hn2⟩ := List.nodup_cons.1 hn
    simp only [List.map_cons, List.cons_append, Spec.misses, ih hn2]
    by_cases hk : k = i
    · by_cases ha : a = j
      · subst ha
        simp [hk, hn1]
      · have ha' : ¬ j = a := fun e => ha e.symm
        simp [hk, ha, ha']
    · simp [hk]

theorem accepts_calls (i : α) (p : FoPing α σ) (ok : α → Bool) (h : List (FoSeen α σ)) (k : α) (peers : List α) :
    Spec.accepts i (peers.map (fun x => FoSeen.called k x p (ok x)) ++ h) =
      if k = i ∧ peers ≠ [] then [] else Spec.accepts i h := by
  induction peers with
  | nil => simp
  | cons a rest ih =>
    simp only [List.map_cons, List.cons_append, Spec.accepts, ih]
    by_cases hk : k = i <;> simp [hk]

theorem ownRing_calls (i : α) (p : FoPing α σ) (ok : α → Bool) (h : List (FoSeen α σ)) (k : α) (peers : List α) :
    Spec.OwnRing i (peers.map (fun x => FoSeen.called k x p (ok x)) ++ h) ↔ Spec.OwnRing i h := by
  induction peers with
  | nil => simp
  | cons a rest ih => simpa [Spec.OwnRing] using ih

/-- What holds of every node at all times. -/
structure FoInv (names : List α) (s : FoCluster α σ) : Prop where
  self : ∀ i, (s.node i).self = i
  peers : ∀ i, (s.node i).peers = peersOf names i
  count : ∀ i, s.up i = true → ∀ j ∈ peersOf names i, (s.node i).failCount j = Spec.misses i j s.seen
  active : 0 < c.failAfter → ∀ i, s.up i = true →
    (s.node i).active.Perm (((peersOf names i).filter fun j => decide ((Spec.misses i j s.seen : Int) < c.failAfter)) ++ [i])
  nonempty : ∀ i, (s.node i).active ≠ []
  queued : ∀ i, ∀ p ∈ s.queue i, p.nodes ≠ []
  own : ∀ i, Spec.OwnRing i s.seen → (s.node i).ring = Spec.ringOf c (s.node i).active
  first : ∀ i q rest, Spec.accepts i s.seen = q :: rest →
    c.sign (s.node i).ring.keys = q.signature ∨ (s.node i).skipped = true ∨ (s.node i).ring = Spec.ringOf c q.nodes
  second : ∀ i p q rest, Spec.accepts i s.seen = p :: q :: rest → Spec.Truthful c p → Spec.Truthful c q → p.nodes.Perm q.nodes →
    c.sign (s.node i).ring.keys = c.sign (Spec.ringOf c p.nodes).keys

theorem peersOf_nodup {names : List α} (hn : names.Nodup) (i : α) : (peersOf names i).Nodup := hn.filter _

theorem foInv_initial (names : List α) (visit : α → List α) (hv : ∀ i, (visit i).Perm (names.filter (· ≠ i))) :
    FoInv c names (FoCluster.initial c names visit) := by
  have hr : ∀ i, (FoNode.start c i (peersOf names i) (visit i)).ring = Spec.ringOf c (visit i ++ [i]) := fun i =>
    rehash_ring c _ (by simp)
  constructor
  · intro i; rfl
  · intro i; rfl
  · intro i _ j _; rfl
  · intro h0 i _
    have : (peersOf names i).filter (fun j => decide ((Spec.misses i j (FoCluster.initial c names visit).seen : Int) < c.failAfter)) =
        peersOf names i := by
      refine List.filter_eq_self.2 fun j _ => ?_
      simpa [FoCluster.initial, Spec.misses] using h0
    rw [this]
    exact (hv i).append_right _
  · intro i h
    have h : visit i ++ [i] = [] := h
    simp at h
  · intro i p hp; simp [FoCluster.initial] at hp
  · intro i _; exact hr i
  · intro i q rest h; simp [FoCluster.initial, Spec.accepts] at h
  · intro i p q rest h; simp [FoCluster.initial, Spec.accepts] at h

theorem sendPings_keeps (f : FoNode α) (ok : α → Bool) (visit : List α) :
    (f.sendPings c ok visit).self = f.self ∧ (f.sendPings c ok visit).peers = f.peers ∧
      (f.sendPings c ok visit).failCount = fun j => if ok j then 0 else f.failCount j + 1 := by
  unfold FoNode.sendPings
  simp only
  split <;> simp [FoNode.rehash]

theorem sendPings_ring (f : FoNode α) (ok : α → Bool) (visit : List α) :
    ((f.sendPings c ok visit).active = f.active ∧ (f.sendPings c ok visit).ring = f.ring) ∨
      ((f.sendPings c ok visit).ring = Spec.ringOf c (f.sendPings c ok visit).active ∧ (f.sendPings c ok visit).active ≠ []) := by
  unfold FoNode.sendPings
  simp only
  split
  · right
    constructor
    · rw [rehash_ring]
      · rfl
      · simp
    · simp [FoNode.rehash]
  · left; simp

/-- Once a call failed often enough, or an often failed node answers, the list is made anew; otherwise it is what it would be. -/
theorem sendPings_active (f : FoNode α) (ok : α → Bool) (visit : List α) (hv : visit.Perm f.peers)
    (h0 : 0 < c.failAfter)
    (ha : f.active.Perm ((f.peers.filter fun j => decide ((f.failCount j : Int) < c.failAfter)) ++ [f.self])) :
    (f.sendPings c ok visit).active.Perm
      ((f.peers.filter fun j => decide (((if ok j then 0 else f.failCount j + 1 : Nat) : Int) < c.failAfter)) ++ [f.self]) := by
  unfold FoNode.sendPings
  simp only
  split
  · exact (hv.filter _).append_right _
  · rename_i h
    simp only
    refine ha.trans (List.Perm.of_eq ?_)
    congr 1
    refine List.filter_congr fun j hj => ?_
    simp only [List.any_eq_true, not_exists, not_and] at h
    have := h j hj
    by_cases hok : ok j = true
    · simp only [hok, if_true] at this ⊢
      simp only [ge_iff_le, decide_eq_true_eq, not_le] at this
      simp [this, h0]
    · simp only [hok, if_false, Bool.false_eq_true] at this ⊢
      simp only [decide_eq_true_eq] at this
      congr 1
      apply propext
      omega

variable [DecidableEq σ]

theorem hear_keeps (f : FoNode α) (p : FoPing α σ) :
    (f.hear c p).self = f.self ∧ (f.hear c p).peers = f.peers ∧ (f.hear c p).failCount = f.failCount ∧ (f.hear c p).active = f.active := by
  unfold FoNode.hear
  simp only
  split
  · simp [FoNode.rehash]
  · split <;> simp

theorem hear_ring (f : FoNode α) (p : FoPing α σ) (hp : p.nodes ≠ []) :
    (f.obeys c p = true → (f.hear c p).ring = Spec.ringOf c p.nodes) ∧ (f.obeys c p = false → (f.hear c p).ring = f.ring) ∧
      (f.obeys c p = false → p.signature ≠ c.sign f.ring.keys → (f.hear c p).skipped = true) := by
  refine ⟨fun h => ?_, fun h => ?_, fun h hs => ?_⟩
  · simp [FoNode.hear, h, FoNode.rehash, hp, ringOf_eq]
  · simp only [FoNode.hear, h, Bool.false_eq_true, if_false]
    split <;> rfl
  · simp [FoNode.hear, h, hs]

theorem vote_keeps (f : FoNode α) (t : Nat) :
    (f.vote t).self = f.self ∧ (f.vote t).peers = f.peers ∧ (f.vote t).failCount = f.failCount ∧ (f.vote t).active = f.active ∧
      (f.vote t).ring = f.ring ∧ (f.vote t).skipped = f.skipped := by
  unfold FoNode.vote
  split <;> simp

theorem beat_keeps (f : FoNode α) (won : Bool) :
    (f.beat c won).self = f.self ∧ (f.beat c won).peers = f.peers ∧ (f.beat c won).failCount = f.failCount ∧
      (f.beat c won).active = f.active ∧ (f.beat c won).ring = f.ring ∧ (f.beat c won).skipped = f.skipped := by
  unfold FoNode.beat FoNode.elect
  split <;> simp

/-- A change of a node's term, leader and count of missed pings is of no account. -/
theorem foInv_quiet {names : List α} {s : FoCluster α σ} (h : FoInv c names s) (i : α) (g : FoNode α)
    (hg : g.self = (s.node i).self ∧ g.peers = (s.node i).peers ∧ g.failCount = (s.node i).failCount ∧ g.active = (s.node i).active ∧
      g.ring = (s.node i).ring ∧ g.skipped = (s.node i).skipped) : FoInv c names { s with node := putAt s.node i g } := by
  obtain ⟨g1, g2, g3, g4, g5, g6⟩ := hg
  have e1 : ∀ j, (putAt s.node i g j).self = (s.node j).self := fun j => by unfold putAt; split <;> simp_all
  have e2 : ∀ j, (putAt s.node i g j).peers = (s.node j).peers := fun j => by unfold putAt; split <;> simp_all
  have e3 : ∀ j, (putAt s.node i g j).failCount = (s.node j).failCount := fun j => by unfold putAt; split <;> simp_all
  have e4 : ∀ j, (putAt s.node i g j).active = (s.node j).active := fun j => by unfold putAt; split <;> simp_all
  have e5 : ∀ j, (putAt s.node i g j).ring = (s.node j).ring := fun j => by unfold putAt; split <;> simp_all
  have e6 : ∀ j, (putAt s.node i g j).skipped = (s.node j).skipped := fun j => by unfold putAt; split <;> simp_all
  constructor
  · intro j; exact (e1 j).trans (h.self j)
  · intro j; exact (e2 j).trans (h.peers j)
  · intro j hj; rw [e3 j]; exact h.count j hj
  · intro h0 j hj; rw [e4 j]; exact h.active h0 j hj
  · intro j; rw [e4 j]; exact h.nonempty j
  · exact h.queued
  · intro j; rw [e4 j, e5 j]; exact h.own j
  · intro j; rw [e5 j, e6 j]; exact h.first j
  · intro j; rw [e5 j]; exact h.second j

theorem foInv_lead {names : List α} (hn : names.Nodup) {s : FoCluster α σ} (h : FoInv c names s) (i : α) (hup : s.up i = true)
    (fate : α → FoCall) (reached : α → Bool) (visit : List α) (hv : visit.Perm (names.filter (· ≠ i))) :
    FoInv c names (s.lead c i fate reached visit) := by
  have hq : ∀ j, ∀ p ∈ (if j ∈ (s.node i).peers ∧ reached j = true then s.queue j ++ [(s.node i).pingOf c] else s.queue j), p.nodes ≠ [] := by
    intro j p hp
    split at hp
    · rcases List.mem_append.1 hp with hp | hp
      · exact h.queued j p hp
      · rw [List.mem_singleton.1 hp]; exact h.nonempty i
    · exact h.queued j p hp
  unfold FoCluster.lead
  simp only
  split
  · constructor
    · exact h.self
    · exact h.peers
    · intro j hj k hk
      by_cases e : j = i
      · subst e; simp [putAt_self] at hj
      · simp only [putAt_ne _ _ e] at hj
        rw [h.count j hj k hk]
        simp only [Spec.misses]
        rw [misses_calls _ _ _ _ _ _ _ ((h.peers i ▸ peersOf_nodup hn i).filter _)]
        have : ¬ i = j := fun e' => e e'.symm
        simp [this]
    · intro h0 j hj
      by_cases e : j = i
      · subst e; simp [putAt_self] at hj
      · simp only [putAt_ne _ _ e] at hj
        have := h.active h0 j hj
        refine this.trans (List.Perm.of_eq ?_)
        congr 1
        refine List.filter_congr fun k hk => decide_eq_decide.2 ?_
        simp only [Spec.misses]
        rw [misses_calls _ _ _ _ _ _ _ ((h.peers i ▸ peersOf_nodup hn i).filter _)]
        have : ¬ i = j := fun e' => e e'.symm
        simp [this]
    · exact h.nonempty
    · exact hq
    · intro j ho
      simp only [Spec.OwnRing, ownRing_calls] at ho
      exact h.own j ho
    · intro j q rest ha
      simp only [Spec.accepts, accepts_calls] at ha
      split at ha
      · simp at ha
      · exact h.first j q rest ha
    · intro j p q rest ha
      simp only [Spec.accepts, accepts_calls] at ha
      split at ha
      · simp at ha
      · exact h.second j p q rest ha
  · obtain ⟨k1, k2, k3⟩ := sendPings_keeps c (s.node i) (fun j => decide (fate j = .answered)) visit
    have kr := sendPings_ring c (s.node i) (fun j => decide (fate j = .answered)) visit
    have hpn : (s.node i).peers.Nodup := h.peers i ▸ peersOf_nodup hn i
    constructor
    · intro j
      by_cases e : j = i
      · subst e; simp only [putAt_self]; exact k1.trans (h.self j)
      · simp only [putAt_ne _ _ e]; exact h.self j
    · intro j
      by_cases e : j = i
      · subst e; simp only [putAt_self]; exact k2.trans (h.peers j)
      · simp only [putAt_ne _ _ e]; exact h.peers j
    · intro j hj k hk
      simp only
      rw [misses_calls _ _ _ _ _ _ _ hpn]
      by_cases e : j = i
      · subst e
        simp only [putAt_self, k3]
        rw [h.peers j]
        simp only [hk, and_self, if_true]
        rw [h.count j hup k hk]
      · have : ¬ i = j := fun e' => e e'.symm
        simp only [putAt_ne _ _ e, this, false_and, if_false]
        exact h.count j hj k hk
    · intro h0 j hj
      by_cases e : j = i
      · subst e
        simp only [putAt_self]
        have ha := h.active h0 j hup
        have := sendPings_active c (s.node j) (fun j => decide (fate j = .answered)) visit (by rw [h.peers]; exact hv) h0 (by
          rw [h.peers j, h.self j]
          refine ha.trans (List.Perm.of_eq ?_)
          congr 1
          exact List.filter_congr fun k hk => by rw [h.count j hup k hk])
        refine this.trans (List.Perm.of_eq ?_)
        rw [h.self j]
        congr 1
        rw [h.peers j]
        refine List.filter_congr fun k hk => decide_eq_decide.2 ?_
        rw [misses_calls _ _ _ _ _ _ _ (peersOf_nodup hn j)]
        simp only [hk, and_self, if_true]
        rw [h.count j hup k hk]
      · have : ¬ i = j := fun e' => e e'.symm
        simp only [putAt_ne _ _ e]
        refine (h.active h0 j hj).trans (List.Perm.of_eq ?_)
        congr 1
        refine List.filter_congr fun k hk => decide_eq_decide.2 ?_
        rw [misses_calls _ _ _ _ _ _ _ hpn]
        simp [this]
    · intro j
      by_cases e : j = i
      · subst e
        simp only [putAt_self]
        rcases kr with ⟨ka, _⟩ | ⟨_, ka⟩
        · rw [ka]; exact h.nonempty j
        · exact ka
      · simp only [putAt_ne _ _ e]; exact h.nonempty j
    · exact hq
    · intro j ho
      simp only [ownRing_calls] at ho
      by_cases e : j = i
      · subst e
        simp only [putAt_self]
        rcases kr with ⟨ka, kb⟩ | ⟨ka, _⟩
        · rw [ka, kb]; exact h.own j ho
        · exact ka
      · simp only [putAt_ne _ _ e]; exact h.own j ho
    · intro j q rest ha
      simp only [accepts_calls] at ha
      by_cases e : j = i
      · subst e
        simp only [true_and] at ha
        split at ha
        · simp at ha
        · rename_i hne
          simp only [ne_eq, not_not] at hne
          have hsk : (s.node j).sendPings c (fun j => decide (fate j = .answered)) visit =
              { s.node j with failCount := fun k => if decide (fate k = .answered) then 0 else (s.node j).failCount k + 1 } := by
            unfold FoNode.sendPings
            simp [hne]
          simp only [putAt_self, hsk]
          exact h.first j q rest ha
      · have : ¬ i = j := fun e' => e e'.symm
        simp only [this, false_and, if_false] at ha
        simp only [putAt_ne _ _ e]
        exact h.first j q rest ha
    · intro j p q rest ha
      simp only [accepts_calls] at ha
      by_cases e : j = i
      · subst e
        simp only [true_and] at ha
        split at ha
        · simp at ha
        · rename_i hne
          simp only [ne_eq, not_not] at hne
          have hsk : (s.node j).sendPings c (fun j => decide (fate j = .answered)) visit =
              { s.node j with failCount := fun k => if decide (fate k = .answered) then 0 else (s.node j).failCount k + 1 } := by
            unfold FoNode.sendPings
            simp [hne]
          simp only [putAt_self, hsk]
          exact h.second j p q rest ha
      · have : ¬ i = j := fun e' => e e'.symm
        simp only [this, false_and, if_false] at ha
        simp only [putAt_ne _ _ e]
        exact h.second j p q rest ha

theorem foInv_take {names : List α} {s : FoCluster α σ} (h : FoInv c names s) (i : α) : FoInv c names (s.take c i) := by
  unfold FoCluster.take
  cases hqi : s.queue i with
  | nil => exact h
  | cons p rest =>
    simp only
    have hp : p.nodes ≠ [] := h.queued i p (by simp [hqi])
    have hq : ∀ j, ∀ q ∈ putAt s.queue i rest j, q.nodes ≠ [] := by
      intro j q hq
      by_cases e : j = i
      · subst e
        simp only [putAt_self] at hq
        exact h.queued j q (by rw [hqi]; exact List.mem_cons_of_mem _ hq)
      · rw [putAt_ne _ _ e] at hq
        exact h.queued j q hq
    split
    · exact ⟨h.self, h.peers, h.count, h.active, h.nonempty, hq, h.own, h.first, h.second⟩
    · obtain ⟨k1, k2, k3, k4⟩ := hear_keeps c (s.node i) p
      obtain ⟨r1, r2, r3⟩ := hear_ring c (s.node i) p hp
      have e1 : ∀ j, (putAt s.node i ((s.node i).hear c p) j).self = (s.node j).self := fun j => by unfold putAt; split <;> simp_all
      have e2 : ∀ j, (putAt s.node i ((s.node i).hear c p) j).peers = (s.node j).peers := fun j => by unfold putAt; split <;> simp_all
      have e3 : ∀ j, (putAt s.node i ((s.node i).hear c p) j).failCount = (s.node j).failCount := fun j => by
        unfold putAt; split <;> simp_all
      have e4 : ∀ j, (putAt s.node i ((s.node i).hear c p) j).active = (s.node j).active := fun j => by unfold putAt; split <;> simp_all
      constructor
      · intro j; exact (e1 j).trans (h.self j)
      · intro j; exact (e2 j).trans (h.peers j)
      · intro j hj; simp only [e3 j]; exact h.count j hj
      · intro h0 j hj; simp only [e4 j]; exact h.active h0 j hj
      · intro j; simp only [e4 j]; exact h.nonempty j
      · exact hq
      · intro j ho
        obtain ⟨ho1, ho2⟩ := ho
        simp only [e4 j]
        by_cases e : j = i
        · subst e
          simp only [putAt_self]
          rw [r2 (ho1 rfl)]
          exact h.own j ho2
        · simp only [putAt_ne _ _ e]; exact h.own j ho2
      · intro j q rest' ha
        by_cases e : j = i
        · subst e
          simp only [Spec.accepts, if_true, List.cons.injEq] at ha
          obtain ⟨rfl, _⟩ := ha
          simp only [putAt_self]
          cases ho : (s.node j).obeys c p with
          | true => exact Or.inr (Or.inr (r1 ho))
          | false =>
            by_cases hs : p.signature = c.sign (s.node j).ring.keys
            · left; rw [r2 ho, hs]
            · right; left; exact r3 ho hs
        · have e' : ¬ i = j := fun e' => e e'.symm
          simp only [Spec.accepts, e', if_false] at ha
          simp only [putAt_ne _ _ e]
          exact h.first j q rest' ha
      · intro j p' q rest' ha ht1 ht2 hpq
        by_cases e : j = i
        · subst e
          simp only [Spec.accepts, if_true, List.cons.injEq] at ha
          obtain ⟨rfl, ha⟩ := ha
          simp only [putAt_self]
          cases ho : (s.node j).obeys c p with
          | true => rw [r1 ho]
          | false =>
            rw [r2 ho]
            have hsig : q.signature = p.signature := by
              rw [ht1, ht2, ringOf_perm c hpq]
            unfold FoNode.obeys at ho
            rcases h.first j q rest' ha with hf | hf | hf
            · rw [hf, hsig, ht1]
            · simp only [hf, Bool.and_true, decide_eq_false_iff_not, ne_eq, not_not] at ho
              rw [← ho, ht1]
            · rw [hf, ringOf_perm c hpq]
        · have e' : ¬ i = j := fun e' => e e'.symm
          simp only [Spec.accepts, e', if_false] at ha
          simp only [putAt_ne _ _ e]
          exact h.second j p' q rest' ha ht1 ht2 hpq

theorem foInv_step {names : List α} (hn : names.Nodup) {s : FoCluster α σ} (h : FoInv c names s) (e : FoEvent α)
    (he : Spec.Visits names e) : FoInv c names (s.step c names e) := by
  cases e with
  | tick i fate reached visit won =>
    simp only [FoCluster.step]
    split
    · rename_i hup
      split
      · exact foInv_lead c hn h i hup fate reached visit he
      · exact foInv_quiet c h i _ (beat_keeps c _ _)
    · exact h
  | hear i =>
    simp only [FoCluster.step]
    split
    · exact foInv_take c h i
    · exact h
  | vote i t =>
    simp only [FoCluster.step]
    split
    · exact foInv_quiet c h i _ (vote_keeps _ _)
    · exact h
  | stop i =>
    simp only [FoCluster.step]
    have hu : ∀ j, putAt s.up i false j = true → s.up j = true := by
      intro j hj; unfold putAt at hj; split at hj <;> simp_all
    exact ⟨h.self, h.peers, fun j hj => h.count j (hu j hj), fun h0 j hj => h.active h0 j (hu j hj), h.nonempty, h.queued, h.own, h.first,
      h.second⟩
  | restart i visit =>
    simp only [FoCluster.step]
    have hr : (FoNode.start c i (peersOf names i) visit).ring = Spec.ringOf c (visit ++ [i]) := rehash_ring c _ (by simp)
    have hm : ∀ j k, Spec.misses j k (FoSeen.started i :: s.seen) = if i = j then 0 else Spec.misses j k s.seen := fun j k => rfl
    constructor
    · intro j
      by_cases e : j = i
      · subst e; simp only [putAt_self]; rfl
      · simp only [putAt_ne _ _ e]; exact h.self j
    · intro j
      by_cases e : j = i
      · subst e; simp only [putAt_self]; rfl
      · simp only [putAt_ne _ _ e]; exact h.peers j
    · intro j hj k hk
      simp only [hm]
      by_cases e : j = i
      · subst e; simp only [putAt_self, if_true]; rfl
      · have e' : ¬ i = j := fun e' => e e'.symm
        simp only [putAt_ne _ _ e] at hj
        simp only [putAt_ne _ _ e, e', if_false]; exact h.count j hj k hk
    · intro h0 j hj
      simp only [hm]
      by_cases e : j = i
      · subst e
        simp only [putAt_self, if_true]
        have : (peersOf names j).filter (fun _ => decide (((0 : Nat) : Int) < c.failAfter)) = peersOf names j :=
          List.filter_eq_self.2 fun j _ => by simpa using h0
        rw [this]
        exact he.append_right _
      · have e' : ¬ i = j := fun e' => e e'.symm
        simp only [putAt_ne _ _ e] at hj
        simp only [putAt_ne _ _ e, e', if_false]; exact h.active h0 j hj
    · intro j
      by_cases e : j = i
      · subst e
        simp only [putAt_self]
        intro h
        have h : visit ++ [j] = [] := h
        simp at h
      · simp only [putAt_ne _ _ e]; exact h.nonempty j
    · intro j p hp
      by_cases e : j = i
      · subst e; simp [putAt_self] at hp
      · simp only [putAt_ne _ _ e] at hp; exact h.queued j p hp
    · intro j ho
      by_cases e : j = i
      · subst e; simp only [putAt_self]; exact hr
      · have e' : ¬ i = j := fun e' => e e'.symm
        simp only [Spec.OwnRing, e', false_or] at ho
        simp only [putAt_ne _ _ e]; exact h.own j ho
    · intro j q rest ha
      by_cases e : j = i
      · subst e; simp [Spec.accepts] at ha
      · have e' : ¬ i = j := fun e' => e e'.symm
        simp only [Spec.accepts, e', if_false] at ha
        simp only [putAt_ne _ _ e]; exact h.first j q rest ha
    · intro j p q rest ha
      by_cases e : j = i
      · subst e; simp [Spec.accepts] at ha
      · have e' : ¬ i = j := fun e' => e e'.symm
        simp only [Spec.accepts, e', if_false] at ha
        simp only [putAt_ne _ _ e]; exact h.second j p q rest ha

theorem foInv_run {names : List α} (hn : names.Nodup) {s : FoCluster α σ} (h : FoInv c names s) (es : List (FoEvent α))
    (he : ∀ e ∈ es, Spec.Visits names e) : FoInv c names (s.run c names es) := by
  unfold FoCluster.run
  induction es generalizing s with
  | nil => exact h
  | cons e es ih =>
    exact ih (foInv_step c hn h e (he e (by simp))) fun e' he' => he e' (by simp [he'])
end

variable [DecidableEq σ]

/-- Only `l` has called other nodes. -/
def Spec.OnlyCaller (l : α) (seen : List (FoSeen α σ)) : Prop := ∀ i j p ok, FoSeen.called i j p ok ∈ seen → i = l

/-- C95: a running node lists itself and exactly those others whose latest calls did not fail too often in a row. -/
theorem C95_members (c : FoSettings α σ) (h0 : 0 < c.failAfter) (names : List α) (hn : names.Nodup) (visit : α → List α)
    (hv : ∀ i, (visit i).Perm (names.filter (· ≠ i))) (es : List (FoEvent α)) (he : ∀ e ∈ es, Spec.Visits names e) (i : α) :
    let s := (FoCluster.initial c names visit).run c names es
    s.up i = true → ∀ j, j ∈ (s.node i).active ↔ j = i ∨ j ∈ names ∧ (Spec.misses i j s.seen : Int) < c.failAfter := by
  intro s hup j
  have h := (foInv_run c hn (foInv_initial c names visit hv) es he).active h0 i hup
  rw [h.mem_iff]
  simp only [List.mem_append, List.mem_filter, peersOf, List.mem_singleton, decide_eq_true_eq, ne_eq]
  constructor
  · rintro (⟨⟨h1, _⟩, h2⟩ | h1)
    · exact Or.inr ⟨h1, h2⟩
    · exact Or.inl h1
  · rintro (h1 | ⟨h1, h2⟩)
    · exact Or.inr h1
    · by_cases e : j = i
      · exact Or.inr e
      · exact Or.inl ⟨⟨h1, e⟩, h2⟩

/-- C95: the ring of a node that has not rebuilt it at another's request is that of the nodes it lists. -/
theorem C95_own_partial (c : FoSettings α σ) (names : List α) (hn : names.Nodup) (visit : α → List α)
    (hv : ∀ i, (visit i).Perm (names.filter (· ≠ i))) (es : List (FoEvent α)) (he : ∀ e ∈ es, Spec.Visits names e) (i : α) :
    let s := (FoCluster.initial c names visit).run c names es
    Spec.OwnRing i s.seen → (s.node i).ring = Spec.ringOf c (s.node i).active :=
  (foInv_run c hn (foInv_initial c names visit hv) es he).own i

theorem get_of_keys {r r' : HashRing α} (h : r.keys = r'.keys) (k : Nat) (key : α) : r.get k key = r'.get k key := by
  simp [HashRing.get, h]

/-- C95: two truthful pings with the same nodes are enough for a node to take the same nodes to serve all contracts. -/
theorem C95_agree_partial (c : FoSettings α σ) (names : List α) (hn : names.Nodup) (visit : α → List α)
    (hv : ∀ i, (visit i).Perm (names.filter (· ≠ i))) (es : List (FoEvent α)) (he : ∀ e ∈ es, Spec.Visits names e) (i : α)
    (p q : FoPing α σ) (rest : List (FoPing α σ)) :
    let s := (FoCluster.initial c names visit).run c names es
    Spec.accepts i s.seen = p :: q :: rest → Spec.Truthful c p → Spec.Truthful c q → p.nodes.Perm q.nodes →
      (c.sign (s.node i).ring.keys = c.sign (Spec.ringOf c p.nodes).keys → (s.node i).ring.keys = (Spec.ringOf c p.nodes).keys) →
      ∀ k key, (s.node i).owner k key = (Spec.ringOf c p.nodes).get k key := by
  intro s ha hp hq hpq hs k key
  exact get_of_keys (hs ((foInv_run c hn (foInv_initial c names visit hv) es he).second i p q rest ha hp hq hpq)) k key

/-- While only `l` calls others: nobody calls `l`, and all pings are truthful. -/
structure Solo (c : FoSettings α σ) (l : α) (s : FoCluster α σ) : Prop where
  queue : s.queue l = []
  unheard : ∀ p b, FoSeen.heard l p b ∉ s.seen
  queued : ∀ i, ∀ p ∈ s.queue i, Spec.Truthful c p
  heard : ∀ i p b, FoSeen.heard i p b ∈ s.seen → Spec.Truthful c p

theorem ownRing_of_unheard (l : α) : ∀ seen : List (FoSeen α σ), (∀ p b, FoSeen.heard l p b ∉ seen) → Spec.OwnRing l seen := by
  intro seen
  induction seen with
  | nil => intro _; trivial
  | cons o rest ih =>
    intro h
    have ih := ih fun p b hm => h p b (List.mem_cons_of_mem _ hm)
    cases o with
    | started i => exact Or.inr ih
    | stopped i => exact ih
    | called i j p ok => exact ih
    | heard i p b => exact ⟨fun e => absurd (by rw [e]; exact List.mem_cons_self) (h p b), ih⟩

theorem accepts_heard (i : α) (p : FoPing α σ) : ∀ seen : List (FoSeen α σ), p ∈ Spec.accepts i seen → ∃ b, FoSeen.heard i p b ∈ seen := by
  intro seen
  induction seen with
  | nil => intro h; simp [Spec.accepts] at h
  | cons o rest ih =>
    intro h
    have up : (∃ b, FoSeen.heard i p b ∈ rest) → ∃ b, FoSeen.heard i p b ∈ o :: rest := fun ⟨b, hb⟩ => ⟨b, List.mem_cons_of_mem _ hb⟩
    cases o with
    | started a => simp only [Spec.accepts] at h; split at h
                   · simp at h
                   · exact up (ih h)
    | stopped a => exact up (ih h)
    | called a b q ok => simp only [Spec.accepts] at h; split at h
                         · simp at h
                         · exact up (ih h)
    | heard a q b =>
      simp only [Spec.accepts] at h
      split at h
      · rename_i e
        rcases List.mem_cons.1 h with rfl | h
        · exact ⟨b, by rw [e]; exact List.mem_cons_self⟩
        · exact up (ih h)
      · exact up (ih h)

theorem lead_solo (c : FoSettings α σ) {names : List α} {s : FoCluster α σ} (hi : FoInv c names s) (l : α) (hs : Solo c l s) (i : α)
    (fate : α → FoCall) (reached : α → Bool) (visit : List α) (ho : Spec.OnlyCaller l (s.lead c i fate reached visit).seen) :
    Solo c l (s.lead c i fate reached visit) := by
  have hq : (s.lead c i fate reached visit).queue =
      fun j => if j ∈ (s.node i).peers ∧ reached j = true then s.queue j ++ [(s.node i).pingOf c] else s.queue j := by
    unfold FoCluster.lead; simp only; split <;> rfl
  have hil : ∀ j, j ∈ (s.node i).peers → reached j = true → i = l := by
    intro j hj hr
    refine ho i j ((s.node i).pingOf c) (decide (fate j = .answered)) ?_
    unfold FoCluster.lead
    simp only
    split
    · refine List.mem_cons_of_mem _ (List.mem_append_left _ (List.mem_map.2 ⟨j, List.mem_filter.2 ⟨hj, hr⟩, rfl⟩))
    · exact List.mem_append_left _ (List.mem_map.2 ⟨j, hj, rfl⟩)
  have hh : ∀ a p b, FoSeen.heard a p b ∈ (s.lead c i fate reached visit).seen → FoSeen.heard a p b ∈ s.seen := by
    intro a p b hm
    unfold FoCluster.lead at hm
    simp only at hm
    split at hm
    · simpa using hm
    · simpa using hm
  have ht : i = l → Spec.Truthful c ((s.node i).pingOf c) := by
    intro e
    have := hi.own l (ownRing_of_unheard l _ hs.unheard)
    subst e
    simp [Spec.Truthful, FoNode.pingOf, this]
  constructor
  · rw [hq]
    simp only
    split
    · rename_i h
      have := hil l h.1 h.2
      rw [hi.peers, this] at h
      simp [peersOf] at h
    · exact hs.queue
  · exact fun p b hm => hs.unheard p b (hh l p b hm)
  · intro j p hp
    rw [hq] at hp
    simp only at hp
    split at hp
    · rename_i h
      rcases List.mem_append.1 hp with hp | hp
      · exact hs.queued j p hp
      · rw [List.mem_singleton.1 hp]
        exact ht (hil j h.1 h.2)
    · exact hs.queued j p hp
  · exact fun a p b hm => hs.heard a p b (hh a p b hm)

theorem take_solo (c : FoSettings α σ) {s : FoCluster α σ} (l : α) (hs : Solo c l s) (i : α) : Solo c l (s.take c i) := by
  unfold FoCluster.take
  cases hq : s.queue i with
  | nil => exact hs
  | cons p rest =>
    have hil : l ≠ i := by intro e; rw [← e, hs.queue] at hq; simp at hq
    have q1 : putAt s.queue i rest l = [] := by rw [putAt_ne _ _ hil]; exact hs.queue
    have q2 : ∀ j, ∀ q ∈ putAt s.queue i rest j, Spec.Truthful c q := by
      intro j q hj
      by_cases e : j = i
      · subst e
        rw [putAt_self] at hj
        exact hs.queued j q (by rw [hq]; exact List.mem_cons_of_mem _ hj)
      · rw [putAt_ne _ _ e] at hj; exact hs.queued j q hj
    simp only
    split
    · exact ⟨q1, hs.unheard, q2, hs.heard⟩
    · refine ⟨q1, ?_, q2, ?_⟩
      · intro p' b hm
        rcases List.mem_cons.1 hm with e | hm
        · cases e; exact hil rfl
        · exact hs.unheard p' b hm
      · intro j p' b hm
        rcases List.mem_cons.1 hm with e | hm
        · cases e; exact hs.queued _ _ (by rw [hq]; exact List.mem_cons_self)
        · exact hs.heard j p' b hm

/-- What has been seen stays seen. -/
theorem step_seen (c : FoSettings α σ) (names : List α) (s : FoCluster α σ) (e : FoEvent α) :
    ∃ new, (s.step c names e).seen = new ++ s.seen := by
  cases e with
  | tick i fate reached visit won =>
    simp only [FoCluster.step]
    split
    · split
      · unfold FoCluster.lead
        simp only
        split
        · exact ⟨_ :: _, rfl⟩
        · exact ⟨_, rfl⟩
      · exact ⟨[], rfl⟩
    · exact ⟨[], rfl⟩
  | hear i =>
    simp only [FoCluster.step]
    split
    · unfold FoCluster.take
      split
      · exact ⟨[], rfl⟩
      · split
        · exact ⟨[], rfl⟩
        · exact ⟨[_], rfl⟩
    · exact ⟨[], rfl⟩
  | vote i t =>
    simp only [FoCluster.step]
    split <;> exact ⟨[], rfl⟩
  | stop i => exact ⟨[_], rfl⟩
  | restart i visit => exact ⟨[_], rfl⟩

theorem run_seen (c : FoSettings α σ) (names : List α) (es : List (FoEvent α)) : ∀ s : FoCluster α σ,
    ∃ new, (s.run c names es).seen = new ++ s.seen := by
  induction es with
  | nil => intro s; exact ⟨[], rfl⟩
  | cons e es ih =>
    intro s
    obtain ⟨n1, h1⟩ := step_seen c names s e
    obtain ⟨n2, h2⟩ := ih (s.step c names e)
    exact ⟨n2 ++ n1, by
      show ((s.step c names e).run c names es).seen = _
      rw [h2, h1, List.append_assoc]⟩

theorem onlyCaller_of_append {l : α} {a b : List (FoSeen α σ)} (h : Spec.OnlyCaller l (a ++ b)) : Spec.OnlyCaller l b :=
  fun i j p ok hm => h i j p ok (List.mem_append_right _ hm)

theorem step_solo (c : FoSettings α σ) {names : List α} {s : FoCluster α σ} (hi : FoInv c names s) (l : α) (hs : Solo c l s) (e : FoEvent α)
    (ho : Spec.OnlyCaller l (s.step c names e).seen) : Solo c l (s.step c names e) := by
  cases e with
  | tick i fate reached visit won =>
    simp only [FoCluster.step] at ho ⊢
    split
    · rename_i hup
      simp only [hup, if_true] at ho
      split
      · rename_i hl
        simp only [hl, if_true] at ho
        exact lead_solo c hi l hs i fate reached visit ho
      · exact ⟨hs.queue, hs.unheard, hs.queued, hs.heard⟩
    · exact hs
  | hear i =>
    simp only [FoCluster.step]
    split
    · exact take_solo c l hs i
    · exact hs
  | vote i t =>
    simp only [FoCluster.step]
    split
    · exact ⟨hs.queue, hs.unheard, hs.queued, hs.heard⟩
    · exact hs
  | stop i =>
    refine ⟨hs.queue, ?_, hs.queued, ?_⟩
    · intro p b hm; exact hs.unheard p b (by simpa [FoCluster.step] using hm)
    · intro j p b hm; exact hs.heard j p b (by simpa [FoCluster.step] using hm)
  | restart i visit =>
    refine ⟨?_, ?_, ?_, ?_⟩
    · simp only [FoCluster.step, putAt]; split
      · rfl
      · exact hs.queue
    · intro p b hm; exact hs.unheard p b (by simpa [FoCluster.step] using hm)
    · intro j p hp
      simp only [FoCluster.step, putAt] at hp
      split at hp
      · simp at hp
      · exact hs.queued j p hp
    · intro j p b hm; exact hs.heard j p b (by simpa [FoCluster.step] using hm)

theorem run_solo (c : FoSettings α σ) {names : List α} (hn : names.Nodup) (l : α) (es : List (FoEvent α)) :
    ∀ s : FoCluster α σ, FoInv c names s → Solo c l s → (∀ e ∈ es, Spec.Visits names e) →
      Spec.OnlyCaller l (s.run c names es).seen → Solo c l (s.run c names es) := by
  induction es with
  | nil => intro s _ hs _ _; exact hs
  | cons e es ih =>
    intro s hi hs he ho
    obtain ⟨new, hnew⟩ := run_seen c names es (s.step c names e)
    have ho' : Spec.OnlyCaller l (s.step c names e).seen := by
      refine onlyCaller_of_append (a := new) ?_
      rw [← hnew]; exact ho
    exact ih (s.step c names e) (foInv_step c hn hi e (he e (by simp))) (step_solo c hi l hs e ho') (fun e' h' => he e' (by simp [h'])) ho

/-- C95: while one node alone leads, every node that has accepted two pings with the leader's list takes the same node to serve
a contract as the leader does, and this node is the leader or one that the leader has not missed too often. -/
theorem C95_one_leader_partial (c : FoSettings α σ) (h0 : 0 < c.failAfter) (hr : 0 < c.replicas) (names : List α) (hn : names.Nodup)
    (visit : α → List α) (hv : ∀ i, (visit i).Perm (names.filter (· ≠ i))) (es : List (FoEvent α))
    (he : ∀ e ∈ es, Spec.Visits names e) (l i : α) (p q : FoPing α σ) (rest : List (FoPing α σ)) :
    let s := (FoCluster.initial c names visit).run c names es
    Spec.OnlyCaller l s.seen → Spec.accepts i s.seen = p :: q :: rest → p.nodes.Perm (s.node l).active → q.nodes.Perm (s.node l).active →
      (c.sign (s.node i).ring.keys = c.sign (s.node l).ring.keys → (s.node i).ring.keys = (s.node l).ring.keys) →
      ∀ k key, (s.node i).owner k key = (s.node l).owner k key ∧
        (s.up l = true → ∃ o, (s.node l).owner k key = some o ∧ (o = l ∨ o ∈ names ∧ (Spec.misses l o s.seen : Int) < c.failAfter)) := by
  intro s ho ha hp hq hs k key
  have hi := foInv_run c hn (foInv_initial c names visit hv) es he
  have hsolo : Solo c l s := run_solo c hn l es _ (foInv_initial c names visit hv)
    ⟨rfl, fun p b h => by simp [FoCluster.initial] at h, fun i p h => by simp [FoCluster.initial] at h,
      fun i p b h => by simp [FoCluster.initial] at h⟩ he ho
  have hring : (s.node l).ring = Spec.ringOf c (s.node l).active := hi.own l (ownRing_of_unheard l _ hsolo.unheard)
  have ht : ∀ r ∈ Spec.accepts i s.seen, Spec.Truthful c r := by
    intro r hr
    obtain ⟨b, hb⟩ := accepts_heard i r s.seen hr
    exact hsolo.heard i r b hb
  have hsig := hi.second i p q rest ha (ht p (by rw [ha]; simp)) (ht q (by rw [ha]; simp)) (hp.trans hq.symm)
  rw [ringOf_perm c hp, ← hring] at hsig
  refine ⟨get_of_keys (hs hsig) k key, fun hup => ?_⟩
  have hne := hi.nonempty l
  obtain ⟨o, hom, hget⟩ := C55_member c.hash c.replicas hr [(s.node l).active] (by simpa using hne) k key
  refine ⟨o, ?_, ?_⟩
  · unfold FoNode.owner
    rw [hring]
    exact hget
  · exact (C95_members c h0 names hn visit hv es he l hup o).1 (by simpa using hom)

/-- C95 is violated: a call that breaks stops the node that made it. -/
theorem C95_broken_call_violated (c : FoSettings α σ) (names : List α) (s : FoCluster α σ) (i j : α) (hl : (s.node i).leader = some (s.node i).self)
    (hj : j ∈ (s.node i).peers) (fate : α → FoCall) (reached : α → Bool) (visit : List α) (won : Bool) (hf : fate j = .broke) :
    (s.step c names (.tick i fate reached visit won)).up i = false := by
  by_cases hup : s.up i = true
  · simp only [FoCluster.step, hup, hl, if_true]
    unfold FoCluster.lead
    simp only
    rw [if_pos (List.any_eq_true.2 ⟨j, hj, by simp [hf]⟩)]
    simp [putAt_self]
  · simp only [FoCluster.step, hup]
    simpa using hup

/-- C95 is violated: if the number of failures is not configured, the leader drops all other nodes as soon as one answers. -/
theorem C95_limit_violated (c : FoSettings α σ) (h0 : c.failAfter ≤ 0) (names : List α) (s : FoCluster α σ) (i j : α) (hup : s.up i = true)
    (hl : (s.node i).leader = some (s.node i).self) (hj : j ∈ (s.node i).peers) (fate : α → FoCall) (reached : α → Bool)
    (visit : List α) (won : Bool) (hb : ∀ k ∈ (s.node i).peers, fate k ≠ .broke) (hf : fate j = .answered) :
    ((s.step c names (.tick i fate reached visit won)).node i).active = [(s.node i).self] := by
  simp only [FoCluster.step, hup, if_true]
  rw [if_pos hl]
  unfold FoCluster.lead
  simp only
  rw [if_neg (by
    simp only [List.any_eq_true, not_exists, not_and, decide_eq_true_eq]
    exact hb)]
  simp only [putAt_self]
  unfold FoNode.sendPings
  simp only
  rw [if_pos (List.any_eq_true.2 ⟨j, hj, by simp [hf]; omega⟩)]
  simp only [FoNode.rehash]
  have : visit.filter (fun k => decide (((if decide (fate k = .answered) = true then 0 else (s.node i).failCount k + 1 : Nat) : Int) < c.failAfter)) = [] := by
    refine List.filter_eq_nil_iff.2 fun k _ => ?_
    simp only [decide_eq_true_eq, not_lt]
    omega
  rw [this]
  rfl

/-- All goes well: every call is answered, and no node starts anew. -/
def Spec.AllWell : FoEvent α → Prop
  | .tick _ fate _ _ _ => ∀ j, fate j = .answered
  | .restart _ _ => False
  | _ => True

/-- A leader `l` with ring `r` and list `n`, where `f` has the ring `r0` or that of `n`. -/
structure Stuck (c : FoSettings α σ) (l f : α) (r r0 : HashRing α) (n : List α) (s : FoCluster α σ) : Prop where
  ring : (s.node l).ring = r
  active : (s.node l).active = n
  count : ∀ j ∈ (s.node l).peers, ((s.node l).failCount j : Int) < c.failAfter
  queue : s.queue l = []
  queued : ∀ p ∈ s.queue f, p.nodes = n
  other : (s.node f).ring = r0 ∨ (s.node f).ring = Spec.ringOf c n
  peers : ∀ i, (s.node i).peers ≠ [] ∧ i ∉ (s.node i).peers

theorem stuck_step (c : FoSettings α σ) (h0 : 0 < c.failAfter) {names : List α} {l f : α} (hlf : f ≠ l) {r r0 : HashRing α} {n : List α}
    (hn : n ≠ []) {s : FoCluster α σ} (h : Stuck c l f r r0 n s) (e : FoEvent α) (hw : Spec.AllWell e)
    (ho : ∃ new, (s.step c names e).seen = new ++ s.seen ∧ Spec.OnlyCaller l new) : Stuck c l f r r0 n (s.step c names e) := by
  have quiet : ∀ i g, g.ring = (s.node i).ring → g.active = (s.node i).active → g.failCount = (s.node i).failCount →
      g.peers = (s.node i).peers → Stuck c l f r r0 n { s with node := putAt s.node i g } := by
    intro i g g1 g2 g3 g4
    have e1 : ∀ j, (putAt s.node i g j).ring = (s.node j).ring := fun j => by unfold putAt; split <;> simp_all
    have e2 : ∀ j, (putAt s.node i g j).active = (s.node j).active := fun j => by unfold putAt; split <;> simp_all
    have e3 : ∀ j, (putAt s.node i g j).failCount = (s.node j).failCount := fun j => by unfold putAt; split <;> simp_all
    have e4 : ∀ j, (putAt s.node i g j).peers = (s.node j).peers := fun j => by unfold putAt; split <;> simp_all
    refine ⟨(e1 l).trans h.ring, (e2 l).trans h.active, ?_, h.queue, h.queued, ?_, ?_⟩
    · simp only [e4, e3]; exact h.count
    · simp only [e1]; exact h.other
    · simp only [e4]; exact h.peers
  cases e with
  | tick i fate reached visit won =>
    simp only [FoCluster.step] at ho ⊢
    split
    · rename_i hup
      simp only [hup, if_true] at ho
      split
      · rename_i hl
        simp only [hl, if_true] at ho
        have hw : ∀ j, fate j = .answered := hw
        have hnb : ¬ ((s.node i).peers.any (fun j => decide (fate j = .broke)) = true) := by
          simp [hw]
        unfold FoCluster.lead at ho ⊢
        simp only at ho ⊢
        rw [if_neg hnb] at ho ⊢
        obtain ⟨new, hnew, honly⟩ := ho
        have hnew := List.append_cancel_right hnew
        obtain ⟨j0, hj0⟩ := List.exists_mem_of_ne_nil _ (h.peers i).1
        have hil : i = l := honly i j0 ((s.node i).pingOf c) (decide (fate j0 = .answered)) (by
          rw [← hnew]; exact List.mem_map.2 ⟨j0, hj0, rfl⟩)
        subst hil
        have hsend : (s.node i).sendPings c (fun j => decide (fate j = .answered)) visit = { s.node i with failCount := fun _ => 0 } := by
          unfold FoNode.sendPings
          simp only [hw, decide_true, if_true]
          rw [if_neg]
          simp only [List.any_eq_true, not_exists, not_and, decide_eq_true_eq, ge_iff_le, not_le]
          exact h.count
        rw [hsend]
        have e1 : ∀ j, (putAt s.node i { s.node i with failCount := fun _ => 0 } j).ring = (s.node j).ring := fun j => by
          unfold putAt; split <;> simp_all
        have e2 : ∀ j, (putAt s.node i { s.node i with failCount := fun _ => 0 } j).active = (s.node j).active := fun j => by
          unfold putAt; split <;> simp_all
        have e4 : ∀ j, (putAt s.node i { s.node i with failCount := fun _ => 0 } j).peers = (s.node j).peers := fun j => by
          unfold putAt; split <;> simp_all
        refine ⟨(e1 i).trans h.ring, (e2 i).trans h.active, ?_, ?_, ?_, ?_, ?_⟩
        · intro j _
          simp only [putAt_self]
          simpa using h0
        · simp only
          rw [if_neg]
          · exact h.queue
          · exact fun hh => (h.peers i).2 hh.1
        · intro p hp
          simp only at hp
          split at hp
          · rcases List.mem_append.1 hp with hp | hp
            · exact h.queued p hp
            · rw [List.mem_singleton.1 hp]; exact h.active
          · exact h.queued p hp
        · simp only [e1]; exact h.other
        · simp only [e4]; exact h.peers
      · obtain ⟨_, k2, k3, k4, k5, _⟩ := beat_keeps c (s.node i) won
        exact quiet i _ k5 k4 k3 k2
    · exact h
  | hear i =>
    simp only [FoCluster.step]
    split
    · unfold FoCluster.take
      cases hq : s.queue i with
      | nil => exact h
      | cons p rest =>
        have hil : l ≠ i := by intro e; rw [← e, h.queue] at hq; simp at hq
        have q1 : putAt s.queue i rest l = [] := by rw [putAt_ne _ _ hil]; exact h.queue
        have q2 : ∀ q ∈ putAt s.queue i rest f, q.nodes = n := by
          intro q hj
          by_cases e : f = i
          · subst e
            rw [putAt_self] at hj
            exact h.queued q (by rw [hq]; exact List.mem_cons_of_mem _ hj)
          · rw [putAt_ne _ _ e] at hj; exact h.queued q hj
        simp only
        split
        · exact ⟨h.ring, h.active, h.count, q1, q2, h.other, h.peers⟩
        · obtain ⟨_, k2, _, _⟩ := hear_keeps c (s.node i) p
          refine ⟨?_, ?_, ?_, q1, q2, ?_, ?_⟩
          · simp only [putAt_ne _ _ hil]; exact h.ring
          · simp only [putAt_ne _ _ hil]; exact h.active
          · simp only [putAt_ne _ _ hil]; exact h.count
          · by_cases e : f = i
            · subst e
              have hp : p.nodes = n := h.queued p (by rw [hq]; exact List.mem_cons_self)
              obtain ⟨r1, r2, _⟩ := hear_ring c (s.node f) p (by rw [hp]; exact hn)
              simp only [putAt_self]
              cases hob : (s.node f).obeys c p with
              | true => right; rw [r1 hob, hp]
              | false => rw [r2 hob]; exact h.other
            · simp only [putAt_ne _ _ e]; exact h.other
          · intro j
            by_cases e : j = i
            · subst e; simp only [putAt_self, k2]; exact h.peers j
            · simp only [putAt_ne _ _ e]; exact h.peers j
    · exact h
  | vote i t =>
    simp only [FoCluster.step]
    split
    · obtain ⟨_, k2, k3, k4, k5, _⟩ := vote_keeps (s.node i) t
      exact quiet i _ k5 k4 k3 k2
    · exact h
  | stop i => exact ⟨h.ring, h.active, h.count, h.queue, h.queued, h.other, h.peers⟩
  | restart i visit => exact absurd hw (by simp [Spec.AllWell])

theorem stuck_run (c : FoSettings α σ) (h0 : 0 < c.failAfter) {names : List α} {l f : α} (hlf : f ≠ l) {r r0 : HashRing α} {n : List α}
    (hn : n ≠ []) (es : List (FoEvent α)) : ∀ s : FoCluster α σ, Stuck c l f r r0 n s → (∀ e ∈ es, Spec.AllWell e) →
      (∃ new, (s.run c names es).seen = new ++ s.seen ∧ Spec.OnlyCaller l new) → Stuck c l f r r0 n (s.run c names es) := by
  induction es with
  | nil => intro s h _ _; exact h
  | cons e es ih =>
    intro s h hw ⟨new, hnew, ho⟩
    obtain ⟨n1, h1⟩ := step_seen c names s e
    obtain ⟨n2, h2⟩ := run_seen c names es (s.step c names e)
    have hnew : n2 ++ n1 = new := by
      refine List.append_cancel_right (bs := s.seen) ?_
      rw [← hnew, List.append_assoc, ← h1, ← h2]; rfl
    refine ih (s.step c names e) (stuck_step c h0 hlf hn h e (hw e (by simp)) ⟨n1, h1, ?_⟩) (fun e' h' => hw e' (by simp [h'])) ⟨n2, h2, ?_⟩
    · exact onlyCaller_of_append (a := n2) (by rw [hnew]; exact ho)
    · intro i j p ok hm
      exact ho i j p ok (by rw [← hnew]; exact List.mem_append_left _ hm)

/-- 32-bit FNV-1a, as in ringhash.go:69-73. -/
def toyFnv32 (b : List Nat) : Nat := b.foldl (fun h x => (Nat.xor h x * 16777619) % 4294967296) 2166136261

/-- 128-bit FNV-1a. -/
def toyFnv128 (b : List Nat) : Nat :=
  b.foldl (fun h x => (Nat.xor h x * 309485009821345068724781371) % 340282366920938463463374607431768211456) 144066263297769815596495629667062367629

/-- The decimal digits of a number below 100. -/
def toyDigits (n : Nat) : List Nat := if n < 10 then [48 + n] else [48 + n / 10, 48 + n % 10]

/-- A cluster of nodes named by digits, with the functions of ringhash.go. -/
def toyFo : FoSettings Nat Nat where
  hash := fun i name => toyFnv32 (toyDigits i ++ toyDigits name)
  replicas := 20
  sign := fun keys => toyFnv128 (keys.flatMap fun e =>
    let h := (ofLex e).1
    [h % 256, h / 256 % 256, h / 65536 % 256, h / 16777216 % 256] ++ toyDigits (ofLex e).2)
  voteAfter := 2
  failAfter := 2

/-- A heartbeat at which calls to the nodes in `gone` are refused. -/
def toyBeat (i : Nat) (gone : List Nat) (won : Bool) : FoEvent Nat :=
  .tick i (fun j => if j ∈ gone then .refused else .answered) (fun j => decide (j ∉ gone)) ([1, 2, 3].filter (· ≠ i)) won

/-- Node 1 leads; node 3 is not connected, and node 2 is told so. -/
def toyFailover : List (FoEvent Nat) :=
  [toyBeat 1 [] false, toyBeat 1 [] true, toyBeat 1 [3] false, toyBeat 1 [3] false, toyBeat 1 [3] false, toyBeat 1 [3] false,
    .hear 2, .hear 2, .hear 2, .hear 2]

/-- Node 3 is connected again, and node 2 takes over. -/
def toyTakeover : List (FoEvent Nat) := toyFailover ++ [toyBeat 2 [] false, toyBeat 2 [] true, .vote 3 2, .vote 1 2]

def toyFoStart : FoCluster Nat Nat := FoCluster.initial toyFo [1, 2, 3] fun i => [1, 2, 3].filter (· ≠ i)

/-- Whether only `l` has called. -/
def onlyCallerB (l : Nat) (seen : List (FoSeen Nat Nat)) : Bool :=
  seen.all fun o => match o with
    | .called i _ _ _ => decide (i = l)
    | _ => true

theorem onlyCaller_of {l : Nat} {seen : List (FoSeen Nat Nat)} (h : onlyCallerB l seen = true) : Spec.OnlyCaller l seen := by
  intro i j p ok hm
  simpa using List.all_eq_true.1 h _ hm

theorem toyVisits : ∀ e ∈ toyTakeover, Spec.Visits [1, 2, 3] e := by
  intro e he
  simp only [toyTakeover, toyFailover, toyBeat, List.mem_append, List.mem_cons, List.not_mem_nil, or_false] at he
  rcases he with (he | he | he | he | he | he | he | he | he | he) | he | he | he | he <;> subst he <;>
    first | exact List.Perm.refl _ | trivial

/-- Node 2 has accepted two pings with the list of node 1, which leads alone: the hypotheses of `C95_one_leader_partial`. -/
example : Spec.OnlyCaller 1 (toyFoStart.run toyFo [1, 2, 3] toyFailover).seen ∧
    (Spec.accepts 2 (toyFoStart.run toyFo [1, 2, 3] toyFailover).seen).map (·.nodes) = [[2, 1], [2, 1], [2, 3, 1], [2, 3, 1]] ∧
    ((toyFoStart.run toyFo [1, 2, 3] toyFailover).node 1).active = [2, 1] ∧
    ((toyFoStart.run toyFo [1, 2, 3] toyFailover).node 2).ring.keys = ((toyFoStart.run toyFo [1, 2, 3] toyFailover).node 1).ring.keys ∧
    ((toyFoStart.run toyFo [1, 2, 3] toyFailover).node 2).ring.keys.length = 40 :=
  ⟨onlyCaller_of (by decide +kernel), by decide +kernel, by decide +kernel, by decide +kernel, by decide +kernel⟩

/-- Node 1 has failed to call node 3 four times. -/
example : Spec.misses 1 3 (toyFoStart.run toyFo [1, 2, 3] toyFailover).seen = 4 ∧
    Spec.misses 1 2 (toyFoStart.run toyFo [1, 2, 3] toyFailover).seen = 0 := by decide +kernel

theorem toyFoInv0 : FoInv toyFo [1, 2, 3] toyFoStart := foInv_initial toyFo [1, 2, 3] _ fun _ => .refl _

theorem toyFoInv : FoInv toyFo [1, 2, 3] (toyFoStart.run toyFo [1, 2, 3] toyTakeover) :=
  foInv_run toyFo (by decide) toyFoInv0 toyTakeover toyVisits

theorem toyStuck :
    Stuck toyFo 2 3 ((toyFoStart.run toyFo [1, 2, 3] toyTakeover).node 2).ring ((toyFoStart.run toyFo [1, 2, 3] toyTakeover).node 3).ring
      [1, 3, 2] (toyFoStart.run toyFo [1, 2, 3] toyTakeover) := by
  refine ⟨rfl, by decide +kernel, ?_, by decide +kernel, ?_, Or.inl rfl, ?_⟩
  · intro j hj
    rw [toyFoInv.peers 2] at hj
    have hj : j ∈ [1, 3] := hj
    revert j
    decide +kernel
  · decide +kernel
  · intro i
    rw [toyFoInv.peers i]
    constructor
    · by_cases e : i = 1
      · subst e; decide
      · exact List.ne_nil_of_mem (List.mem_filter.2 ⟨List.mem_cons_self, by simpa using fun h => e h.symm⟩ : 1 ∈ peersOf [1, 2, 3] i)
    · simp [peersOf]

/-- C95 is violated: after node 3 could not be reached, node 2 was told so and took over from node 1, all goes well, but however
long it does, nodes 2 and 3 each take themselves to serve the contract 12. -/
theorem C95_takeover_violated : ∃ es : List (FoEvent Nat), (∀ e ∈ es, Spec.Visits [1, 2, 3] e) ∧
    let s := toyFoStart.run toyFo [1, 2, 3] es
    (∀ i ∈ [1, 2, 3], s.up i = true) ∧ (s.node 2).leader = some 2 ∧
    ∀ rest : List (FoEvent Nat), (∀ e ∈ rest, Spec.AllWell e) →
      (∃ new, (s.run toyFo [1, 2, 3] rest).seen = new ++ s.seen ∧ Spec.OnlyCaller 2 new) →
      ((s.run toyFo [1, 2, 3] rest).node 2).owner (toyFnv32 [49, 50]) 12 = some 2 ∧
      ((s.run toyFo [1, 2, 3] rest).node 3).owner (toyFnv32 [49, 50]) 12 = some 3 := by
  refine ⟨toyTakeover, toyVisits, by decide +kernel, by decide +kernel, fun rest hw ho => ?_⟩
  have h := stuck_run toyFo (by decide) (by decide) (by decide) rest _ toyStuck hw ho
  constructor
  · unfold FoNode.owner
    rw [h.ring]
    decide +kernel
  · unfold FoNode.owner
    rcases h.other with h | h <;> rw [h] <;> decide +kernel

/-- A continuation in which node 3 accepts four pings of node 2 and rebuilds its ring twice. -/
example : let s := toyFoStart.run toyFo [1, 2, 3] toyTakeover
    let rest := [toyBeat 2 [] false, .hear 3, toyBeat 2 [] false, .hear 3, toyBeat 2 [] false, .hear 3, toyBeat 2 [] false, .hear 3]
    (∀ e ∈ rest, Spec.AllWell e) ∧ (Spec.accepts 3 (s.run toyFo [1, 2, 3] rest).seen).length = 4 ∧
      ((s.run toyFo [1, 2, 3] rest).seen.filter fun o => match o with
        | .heard 3 _ true => true
        | _ => false).length = 2 := by
  refine ⟨?_, by decide +kernel, by decide +kernel⟩
  intro e he
  simp only [toyBeat, List.mem_cons, List.not_mem_nil, or_false] at he
  rcases he with he | he | he | he | he | he | he | he <;> subst he <;> simp [Spec.AllWell]

/-- Node 3 stops, and with it the leader, node 1. -/
example : let es := [toyBeat 1 [] false, toyBeat 1 [] true, .stop 3, .tick 1 (fun j => if j = 3 then .broke else .answered) (fun _ => false) [2, 3] false]
    let s := toyFoStart.run toyFo [1, 2, 3] es
    s.up 1 = false ∧ s.up 2 = true ∧ s.up 3 = false := by decide +kernel

/-- Without a number of failures, the leader takes itself to serve all contracts though both other nodes answer. -/
example : let c := { toyFo with failAfter := 0 }
    let s := toyFoStart.run c [1, 2, 3] [toyBeat 1 [] false, toyBeat 1 [] true, toyBeat 1 [] false]
    (s.node 1).active = [1] ∧ s.up 2 = true ∧ s.up 3 = true := by decide +kernel

end Verif
