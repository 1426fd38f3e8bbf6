import Verif.Model.Cluster
import Verif.Model.DeliveryInv
import Verif.Props.Serve

/-! # C88: clients of several servers -/

namespace Verif

/-- What happens at node `n` is about a client whose contract is owned by that node. -/
def Spec.AtHome (v : FleetEnv) (f : Fleet) (n : Nat) : SrvEv → Prop
  | .packet q _ => ∀ c k, f.conn n q = some c → c.contract = .ok k → v.owner k = n
  | _ => True

/-- Every packet of a history is at home. -/
def Spec.Homely (v : FleetEnv) : Fleet → List (Nat × SrvEv) → Prop
  | _, [] => True
  | f, e :: es => Spec.AtHome v f e.1 e.2 ∧ ∀ f', f.step v e.1 e.2 = .ok f' → Spec.Homely v f' es

/-- The part of a history at one node. -/
def Spec.ofNode (n : Nat) (evs : List (Nat × SrvEv)) : List SrvEv := (evs.filter (·.1 == n)).map (·.2)

theorem Fleet.at_ok (f : Fleet) (n : Nat) : f.at n (fun s => .ok s) = .ok f := by
  simp only [Fleet.at]
  split
  · rfl
  · next s hs =>
    obtain ⟨h, rfl⟩ := List.getElem?_eq_some_iff.1 hs
    simp [Except.map, List.set_getElem_self]

theorem Fleet.at_bind (f : Fleet) (n : Nat) (g h : Srv → SrvM Srv) : (f.at n g).bind (fun f => f.at n h) = f.at n fun s => (g s).bind h := by
  simp only [Fleet.at]
  cases hs : f.nodes[n]? with
  | none => simp [Except.bind, hs]
  | some s =>
    simp only
    cases hg : g s with
    | error e => rfl
    | ok s1 =>
      have hn : n < f.nodes.length := (List.getElem?_eq_some_iff.1 hs).1
      simp only [Except.map, Except.bind, List.getElem?_set_self hn]
      cases h s1 with
      | error e => rfl
      | ok s2 => simp [List.set_set]

theorem Fleet.at_fold {α : Type} (n : Nat) (g : α → Srv → SrvM Srv) (l : List α) : ∀ f : Fleet,
    SrvM.fold (fun f a => f.at n (g a)) f l = f.at n fun s => SrvM.fold (fun s a => g a s) s l := by
  induction l with
  | nil => intro f; exact (f.at_ok n).symm
  | cons a l ih =>
    intro f
    rw [SrvM.fold]
    simp only [ih]
    rw [Fleet.at_bind]
    rfl

theorem SrvM.fold_append {α β : Type} (f : α → β → SrvM α) (l m : List β) : ∀ a, SrvM.fold f a (l ++ m) = (SrvM.fold f a l).bind fun a => SrvM.fold f a m := by
  induction l with
  | nil => intro a; rfl
  | cons b l ih =>
    intro a
    simp only [List.cons_append, SrvM.fold]
    cases f a b with
    | error e => rfl
    | ok r => exact ih r

theorem SrvM.fold_congr {α β : Type} {f g : α → β → SrvM α} (P : α → Prop) {l : List β} (h : ∀ a b, b ∈ l → P a → f a b = g a b)
    (hp : ∀ a b r, b ∈ l → P a → g a b = .ok r → P r) : ∀ a, P a → SrvM.fold f a l = SrvM.fold g a l := by
  induction l with
  | nil => intros; rfl
  | cons b l ih =>
    intro a ha
    rw [SrvM.fold, SrvM.fold, h a b (by simp) ha]
    cases hg : g a b with
    | error e => rfl
    | ok r =>
      exact ih (fun a b hb => h a b (List.mem_cons_of_mem _ hb)) (fun a b r hb => hp a b r (List.mem_cons_of_mem _ hb)) r (hp a b r (by simp) ha hg)

/-- Connections keep their clients. -/
def SameClients (s s' : Srv) : Prop := ∀ x, (AMap.get s'.conns x).map (·.client) = (AMap.get s.conns x).map (·.client)

theorem Calm.clients {v : SrvEnv} {s s' : Srv} (h : Calm v s s') : SameClients s s' := by
  intro x
  have := congrArg (Option.map Prod.fst) (h.conn x)
  simpa [Option.map_map, Function.comp_def, SrvConn.core] using this

theorem SameClients.trans {a b c : Srv} (h : SameClients a b) (k : SameClients b c) : SameClients a c := fun x => (k x).trans (h x)

theorem SameClients.setConn {s : Srv} {q : UInt32} {c d : SrvConn} (hc : AMap.get s.conns q = some c) (h : d.client = c.client) : SameClients s (s.setConn q d) := by
  intro x
  simp only [Srv.setConn]
  by_cases hx : x = q
  · subst hx; rw [AMap.get_set_self, hc]; simp [h]
  · rw [AMap.get_set_ne _ _ hx]

theorem SameClients.of_set {s r : Srv} {q : UInt32} {c d : SrvConn} (hc : AMap.get s.conns q = some c) (e : r.conns = AMap.set s.conns q d) (h : d.client = c.client) :
    SameClients s r := by
  intro x
  rw [e]
  exact SameClients.setConn hc h x

theorem subscribeTo_clients {s : Srv} {q : UInt32} {c : SrvConn} {t : ReqTopic} {a : SubAsk} {r : Option Verdict × Srv} (hc : AMap.get s.conns q = some c)
    (h : s.subscribeTo q c t a = .ok r) : SameClients s r.2 := by
  simp only [Srv.subscribeTo] at h
  cases hk : c.contract with
  | error e => rw [hk] at h; cases h
  | ok k =>
    rw [hk] at h
    simp only [Except.bind] at h
    split at h
    · injection h with h; subst h; exact fun _ => rfl
    · injection h with h; subst h
      dsimp only
      split <;> exact .of_set hc rfl rfl

theorem unsubscribeFrom_clients {s : Srv} {q : UInt32} {c : SrvConn} {t : ReqTopic} {r : Option Verdict × Srv} (hc : AMap.get s.conns q = some c)
    (h : s.unsubscribeFrom q c t = .ok r) : SameClients s r.2 := by
  simp only [Srv.unsubscribeFrom] at h
  cases hk : c.contract with
  | error e => rw [hk] at h; cases h
  | ok k =>
    rw [hk] at h
    simp only [Except.bind] at h
    split at h
    · injection h with h; subst h; exact fun _ => rfl
    · split at h <;> (injection h with h; subst h; exact .of_set hc rfl rfl)

theorem request_clients {v : SrvEnv} {s : Srv} {q : UInt32} {mid : UInt16} {text : Bytes} {f : SrvConn → ReqTopic → SrvM (Option Verdict × Srv)} {r : Srv}
    (hf : ∀ c t x, AMap.get s.conns q = some c → f c t = .ok x → SameClients s x.2) (h : s.request v q mid text f = .ok r) : SameClients s r := by
  simp only [Srv.request] at h
  split at h
  · injection h with h; subst h; exact fun _ => rfl
  · cases h
  · next c t hc _ =>
    split at h
    · exact (Srv.notifyError_calm h).clients
    · cases hw : c.check t with
      | error e => rw [hw] at h; cases h
      | ok w =>
        rw [hw] at h
        simp only [Except.bind] at h
        split at h
        · cases hx : f c t with
          | error e => rw [hx] at h; cases h
          | ok x =>
            rw [hx] at h
            simp only at h
            split at h
            · injection h with h; subst h; exact hf c t x hc hx
            · exact (hf c t x hc hx).trans (Srv.notifyError_calm h).clients
        · exact (Srv.notifyError_calm h).clients

/-- The client of a connection, if there is one, has its contract owned by the node. -/
def HomeConn (v : FleetEnv) (n : Nat) (q : UInt32) (f : Fleet) : Prop := ∀ c, f.conn n q = some c → v.remote n c = none

theorem remote_of {v : FleetEnv} {n : Nat} {c : SrvConn} (h : ∀ k, c.contract = .ok k → v.owner k = n) : v.remote n c = none := by
  simp only [FleetEnv.remote]
  split
  · next k hk => rw [if_pos (h k hk)]
  · rfl

theorem remote_client {v : FleetEnv} {n : Nat} {c d : SrvConn} (h : c.client = d.client) : v.remote n c = v.remote n d := by
  simp only [FleetEnv.remote, SrvConn.contract, h]

theorem Fleet.conn_some {f : Fleet} {n : Nat} {q : UInt32} {c : SrvConn} : f.conn n q = some c ↔ ∃ s, f.nodes[n]? = some s ∧ AMap.get s.conns q = some c := by
  simp [Fleet.conn, Option.bind_eq_some_iff]

theorem HomeConn.at {v : FleetEnv} {n : Nat} {q : UInt32} {f f' : Fleet} (h : HomeConn v n q f) {g : Srv → SrvM Srv} (hg : ∀ s r, g s = .ok r → SameClients s r)
    (e : f.at n g = .ok f') : HomeConn v n q f' := by
  simp only [Fleet.at] at e
  split at e
  · injection e with e; subst e; exact h
  · next s hs =>
    cases hr : g s with
    | error e' => rw [hr] at e; cases e
    | ok r =>
      rw [hr] at e
      simp only [Except.map] at e
      injection e with e; subst e
      intro c hc
      have hn : n < f.nodes.length := (List.getElem?_eq_some_iff.1 hs).1
      simp only [Fleet.conn, List.getElem?_set_self hn, Option.bind_some] at hc
      have := hg s r hr q
      rw [hc] at this
      simp only [Option.map_some] at this
      obtain ⟨d, hd, hdc⟩ := Option.map_eq_some_iff.1 this.symm
      rw [← remote_client hdc]
      exact h d (Fleet.conn_some.2 ⟨s, hs, hd⟩)

theorem Fleet.at_none {f : Fleet} {n : Nat} {q : UInt32} (h : f.conn n q = none) {g : Srv → SrvM Srv} (hg : ∀ s, AMap.get s.conns q = none → g s = .ok s) :
    f.at n g = .ok f := by
  rw [← f.at_ok n]
  simp only [Fleet.at]
  split
  · rfl
  · next s hs =>
    rw [hg s]
    simpa [Fleet.conn, hs] using h

/-- At home, a step of the cluster is a step of the node. -/
theorem Fleet.step_home {v : FleetEnv} {f : Fleet} {n : Nat} {ev : SrvEv} (ht : f.told = []) (h : Spec.AtHome v f n ev) :
    f.step v n ev = f.at n fun s => s.step v.srv ev := by
  have gone : ∀ (q : UInt32) (g : Srv → SrvM Srv), ((f.at n g).bind fun f => f.gone n q) = f.at n g := by
    intro q g
    cases e : f.at n g with
    | error x => rfl
    | ok f1 =>
      have : f1.told = [] := by
        simp only [Fleet.at] at e
        split at e
        · injection e with e; subst e; exact ht
        · cases hx : g _ with
          | error x => rw [hx] at e; cases e
          | ok x => rw [hx] at e; simp only [Except.map] at e; injection e with e; subst e; exact ht
      simp [Except.bind, Fleet.gone, this]
  have own : ∀ q p, ev = .packet q p → HomeConn v n q f := by
    intro q p e
    subst e
    exact fun c hc => remote_of fun k hk => h c k hc hk
  cases ev with
  | accept q => simp only [Fleet.step]; cases f.at n _ <;> rfl
  | lost q => exact gone q _
  | packet q p =>
    have ho := own q p rfl
    cases p with
    | subscribe mid asks =>
      simp only [Fleet.step]
      cases hc : f.conn n q with
      | none => exact (Fleet.at_none hc fun s hs => by simp [Srv.step, hs]).symm
      | some c =>
        simp only
        rw [SrvM.fold_congr (g := fun f a => f.at n fun s => s.request v.srv q mid a.text fun c t => s.subscribeTo q c t a) (HomeConn v n q)
          ?_ ?_ f ho, Fleet.at_fold, Fleet.at_bind]
        · simp only [Fleet.at]
          obtain ⟨s, hs, hq⟩ := Fleet.conn_some.1 hc
          rw [hs]
          simp only [Srv.step, hq, Srv.handle]
          congr 1
        · intro f a _ ho
          simp only [Fleet.subscribeOne]
          cases hc : f.conn n q with
          | none => exact (Fleet.at_none hc fun s hs => by simp [Srv.request, hs]).symm
          | some c => simp only [ho c hc]
        · intro f a r _ ho e
          exact ho.at (fun s r hr => request_clients (fun c t x hc hx => subscribeTo_clients hc hx) hr) e
    | unsubscribe mid texts =>
      simp only [Fleet.step]
      cases hc : f.conn n q with
      | none => exact (Fleet.at_none hc fun s hs => by simp [Srv.step, hs]).symm
      | some c =>
        simp only
        rw [SrvM.fold_congr (g := fun f a => f.at n fun s => s.request v.srv q mid a fun c t => s.unsubscribeFrom q c t) (HomeConn v n q)
          ?_ ?_ f ho, Fleet.at_fold, Fleet.at_bind]
        · simp only [Fleet.at]
          obtain ⟨s, hs, hq⟩ := Fleet.conn_some.1 hc
          rw [hs]
          simp only [Srv.step, hq, Srv.handle]
          congr 1
        · intro f a _ ho
          simp only [Fleet.unsubscribeOne]
          cases hc : f.conn n q with
          | none => exact (Fleet.at_none hc fun s hs => by simp [Srv.request, hs]).symm
          | some c => simp only [ho c hc]; cases f.at n _ <;> rfl
        · intro f a r _ ho e
          exact ho.at (fun s r hr => request_clients (fun c t x hc hx => unsubscribeFrom_clients hc hx) hr) e
    | publish p =>
      simp only [Fleet.step]
      cases hc : f.conn n q with
      | none => exact (Fleet.at_none hc fun s hs => by simp [Srv.step, hs]).symm
      | some c => simp only [ho c hc]; cases f.at n _ <;> rfl
    | connect a b c d e g => exact gone q _
    | relay a b => exact gone q _
    | receive a => exact gone q _
    | receipt a => exact gone q _
    | ping => exact gone q _
    | disconnect => exact gone q _

/-- C88 (partial: every client is connected to the node that owns its contract). Each node of the cluster does what a server on its own would do with the packets it got, and its clients
receive what they would receive from it; C83 to C86 then say what that is. -/
theorem C88_home_partial (v : FleetEnv) (evs : List (Nat × SrvEv)) : ∀ (f f' : Fleet), f.told = [] → f.rpc = [] → Spec.Homely v f evs → f.run v evs = .ok f' →
    ∀ n s, f.nodes[n]? = some s → ∃ s', f'.nodes[n]? = some s' ∧ s.run v.srv (Spec.ofNode n evs) = .ok s' ∧
      ∀ q, f'.received n q = s'.out.filterMap fun x => if x.1 = q then some x.2 else none := by
  induction evs with
  | nil =>
    intro f f' ht hr _ e n s hs
    injection e with e; subst e
    exact ⟨s, hs, rfl, fun q => by simp [Fleet.received, hr, hs]⟩
  | cons ev evs ih =>
    intro f f' ht hr hh e n s hs
    obtain ⟨m, ev⟩ := ev
    rw [Fleet.run, SrvM.fold] at e
    cases h1 : f.step v m ev with
    | error x => rw [h1] at e; cases e
    | ok f1 =>
      have h2 := hh.2 f1 h1
      simp only [h1, Except.bind] at e
      rw [Fleet.step_home ht hh.1] at h1
      simp only [Fleet.at] at h1
      have key : f1.told = [] ∧ f1.rpc = [] ∧ ∃ s1, f1.nodes[n]? = some s1 ∧ s.run v.srv (Spec.ofNode n [(m, ev)]) = .ok s1 := by
        split at h1
        · next hm =>
          injection h1 with h1; subst h1
          refine ⟨ht, hr, s, hs, ?_⟩
          have : m ≠ n := by rintro rfl; rw [hm] at hs; cases hs
          simp [Spec.ofNode, this, Srv.run, SrvM.fold]
        · next s0 hm =>
          cases hx : s0.step v.srv ev with
          | error x => rw [hx] at h1; cases h1
          | ok s1 =>
            rw [hx] at h1
            simp only [Except.map] at h1
            injection h1 with h1; subst h1
            refine ⟨ht, hr, ?_⟩
            by_cases hmn : m = n
            · subst hmn
              rw [hs] at hm; injection hm with hm; subst hm
              exact ⟨s1, List.getElem?_set_self (List.getElem?_eq_some_iff.1 hs).1, by simp [Spec.ofNode, Srv.run, SrvM.fold, hx, Except.bind]⟩
            · refine ⟨s, ?_, by simp [Spec.ofNode, hmn, Srv.run, SrvM.fold]⟩
              rw [List.getElem?_set_ne hmn, hs]
      obtain ⟨ht1, hr1, s1, hs1, hrun⟩ := key
      obtain ⟨s', g1, g2, g3⟩ := ih f1 f' ht1 hr1 h2 e n s1 hs1
      refine ⟨s', g1, ?_, g3⟩
      have : Spec.ofNode n ((m, ev) :: evs) = Spec.ofNode n [(m, ev)] ++ Spec.ofNode n evs := by
        simp only [Spec.ofNode, ← List.map_append, ← List.filter_append]; rfl
      rw [this, Srv.run, SrvM.fold_append, ← Srv.run, hrun]
      exact g2

theorem Fleet.at_other {f f' : Fleet} {n a : Nat} {g : Srv → SrvM Srv} (h : f.at n g = .ok f') (ha : a ≠ n) : f'.nodes[a]? = f.nodes[a]? := by
  simp only [Fleet.at] at h
  split at h
  · injection h with h; subst h; rfl
  · cases hx : g _ with
    | error x => rw [hx] at h; cases h
    | ok x =>
      rw [hx] at h
      simp only [Except.map] at h
      injection h with h; subst h
      exact List.getElem?_set_ne (Ne.symm ha)

theorem Fleet.forward_other {f f' : Fleet} {n o a : Nat} {q : UInt32} {c : SrvConn} {g : Srv → SrvM Srv} (h : f.forward n o q c g = .ok f') (ha : a ≠ o) :
    f'.nodes[a]? = f.nodes[a]? := by
  simp only [Fleet.forward] at h
  split at h
  · injection h with h; subst h; rfl
  · have := Fleet.at_other h ha
    exact this

/-- C88, violated: whatever the cluster and the subscriptions, a publish changes nothing and sends nothing at any node but the one the publisher is connected to and the one that owns its
contract. -/
theorem C88_elsewhere_violated (v : FleetEnv) (f f' : Fleet) (n : Nat) (q : UInt32) (p : DPub) (c : SrvConn) (hc : f.conn n q = some c)
    (h : f.step v n (.packet q (.publish p)) = .ok f') (a : Nat) (ha : a ≠ n) (hr : v.remote n c ≠ some a) : f'.nodes[a]? = f.nodes[a]? := by
  simp only [Fleet.step, hc] at h
  cases h1 : f.at n (fun s => s.step v.srv (.packet q (.publish p))) with
  | error e => rw [h1] at h; cases h
  | ok f1 =>
    rw [h1] at h
    simp only [Except.bind] at h
    rw [← Fleet.at_other h1 ha]
    split at h
    · injection h with h; subst h; rfl
    · next o ho =>
      have hao : a ≠ o := by rintro rfl; exact hr ho
      have key : ∀ k (f f' : Fleet), SrvM.times (fun f => f.forward n o q c fun s => s.onForwarded v.srv q p) k f = .ok f' → f'.nodes[a]? = f.nodes[a]? := by
        intro k
        induction k with
        | zero => intro f f' h; injection h with h; subst h; rfl
        | succ k ih =>
          intro f f' h
          rw [SrvM.times] at h
          cases h2 : f.forward n o q c fun s => s.onForwarded v.srv q p with
          | error e => rw [h2] at h; cases h
          | ok f2 =>
            rw [h2] at h
            exact (ih f2 f' h).trans (Fleet.forward_other h2 hao)
      exact key _ _ _ h

/-- C88, violated: a subscription to a topic the connection does not hold yet is known to no node but the one the reader is connected to, whoever owns the contract. -/
theorem C88_kept_violated (v : FleetEnv) (f f' : Fleet) (n : Nat) (q : UInt32) (mid : UInt16) (ask : SubAsk) (c : SrvConn) (hc : f.conn n q = some c)
    (hn : c.again ask.text = false) (h : f.step v n (.packet q (.subscribe mid [ask])) = .ok f') (a : Nat) (ha : a ≠ n) : f'.nodes[a]? = f.nodes[a]? := by
  have e : Fleet.subscribeOne v n q mid [ask] f ask = f.at n fun s => s.request v.srv q mid ask.text fun c t => s.subscribeTo q c t ask := by
    simp only [Fleet.subscribeOne, hc]
    cases v.remote n c with
    | none => rfl
    | some o => simp [hn]
  simp only [Fleet.step, hc, SrvM.fold, e] at h
  cases h1 : f.at n fun s => s.request v.srv q mid ask.text fun c t => s.subscribeTo q c t ask with
  | error e => rw [h1] at h; cases h
  | ok f1 =>
    rw [h1] at h
    simp only [Except.bind] at h
    exact (Fleet.at_other h ha).trans (Fleet.at_other h1 ha)

/-- Two nodes; the second owns contract 8, the first all others. -/
def toyFleet : FleetEnv := ⟨toySrv, fun k => if k = 8 then 1 else 0⟩

def toyTwo : Fleet := { nodes := [{}, {}] }

def toyOn (n : Nat) (evs : List SrvEv) : List (Nat × SrvEv) := evs.map (n, ·)

/-- A topic with a key of contract 8. -/
def toyKeyed : Bytes := (generateKey 8 [120] allowRead).getD [] ++ [chSlash, 120]

theorem Srv.onForwarded_calm {v : SrvEnv} {s : Srv} {q : UInt32} {pub : DPub} {r : Srv} (h : s.onForwarded v q pub = .ok r) : SameClients s r := by
  simp only [Srv.onForwarded] at h
  cases hx : s.publishAll v q pub pub.msgs with
  | error e => rw [hx] at h; cases h
  | ok x =>
    have h1 := (Srv.publishAll_calm _ hx).clients
    rw [hx] at h
    simp only [Except.bind] at h
    split at h
    · injection h with h; subst h; exact h1
    · injection h with h; subst h; exact h1
    · cases hy : x.2.sendMessage v q 0 0 0 ⟨errorTopic, v.putError pub.mid⟩ with
      | error e => rw [hy] at h; cases h
      | ok y =>
        rw [hy] at h
        simp only [Except.map] at h
        injection h with h; subst h
        exact h1.trans (Srv.sendMessage_calm hy).clients
    · exact h1.trans (Srv.notifyError_calm h).clients

theorem Srv.adopt_client (s : Srv) (q : UInt32) (c : SrvConn) : (AMap.get (s.adopt q c).conns q).map (·.client) = some c.client := by
  simp only [Srv.adopt]
  split <;> simp [Srv.setConn, AMap.get_set_self]

/-- C88, violated: connections of different nodes may have the same number. When a client publishes at a node that does not own its contract, the connection with its number at the owner, whoever's it
is, gets its client id, and with it its contract. -/
theorem C88_takeover_violated (v : FleetEnv) (f f' : Fleet) (n o : Nat) (q : UInt32) (p : DPub) (c : SrvConn) (hc : f.conn n q = some c) (hr : v.remote n c = some o)
    (ho : o < f.nodes.length) (hp : 0 < c.passes v.srv p.msgs) (h : f.step v n (.packet q (.publish p)) = .ok f') :
    ∃ d, f'.conn o q = some d ∧ d.client = c.client := by
  have hno : o ≠ n := by
    simp only [FleetEnv.remote] at hr
    split at hr
    · split at hr
      · cases hr
      · injection hr with hr; rw [← hr]; assumption
    · cases hr
  simp only [Fleet.step, hc] at h
  cases h1 : f.at n (fun s => s.step v.srv (.packet q (.publish p))) with
  | error e => rw [h1] at h; cases h
  | ok f1 =>
    rw [h1] at h
    simp only [Except.bind, hr] at h
    have ho1 : o < f1.nodes.length := by
      have := Fleet.at_other h1 hno
      rw [List.getElem?_eq_getElem ho] at this
      exact (List.getElem?_eq_some_iff.1 this).1
    have one : ∀ (f f' : Fleet), o < f.nodes.length → (f.forward n o q c fun s => s.onForwarded v.srv q p) = .ok f' →
        o < f'.nodes.length ∧ (f'.conn o q).map (·.client) = some c.client := by
      intro f f' ho h
      simp only [Fleet.forward, List.getElem?_eq_getElem ho, Fleet.at] at h
      cases hx : (f.nodes[o].adopt q c).onForwarded v.srv q p with
      | error e => rw [hx] at h; cases h
      | ok x =>
        rw [hx] at h
        simp only [Except.map] at h
        injection h with h; subst h
        refine ⟨by simpa using ho, ?_⟩
        simp only [Fleet.conn, List.getElem?_set_self ho, Option.bind_some]
        rw [Srv.onForwarded_calm hx q, Srv.adopt_client]
    have key : ∀ k (f f' : Fleet), o < f.nodes.length → SrvM.times (fun f => f.forward n o q c fun s => s.onForwarded v.srv q p) k f = .ok f' →
        (0 < k ∨ (f.conn o q).map (·.client) = some c.client) → (f'.conn o q).map (·.client) = some c.client := by
      intro k
      induction k with
      | zero =>
        intro f f' _ h hk
        injection h with h; subst h
        rcases hk with hk | hk
        · omega
        · exact hk
      | succ k ih =>
        intro f f' ho h _
        rw [SrvM.times] at h
        cases h2 : f.forward n o q c fun s => s.onForwarded v.srv q p with
        | error e => rw [h2] at h; cases h
        | ok f2 =>
          rw [h2] at h
          obtain ⟨g1, g2⟩ := one f f2 ho h2
          exact ih f2 f' g1 h (.inr g2)
    exact Option.map_eq_some_iff.1 (key _ _ _ ho1 h (.inl hp))

theorem fleet_of_toOption {x : SrvM Fleet} {f : Fleet} (h : x.toOption = some f) : x = .ok f := by
  cases x with
  | error e => cases h
  | ok y => injection h with h; rw [h]

/-- A client of contract 7 at node 1, the owner of contract 8, has the number of a client of contract 8 at node 0, which publishes. Then it subscribes and gets what a third client publishes
in contract 8. -/
def toyTaken : List (Nat × SrvEv) :=
  toyOn 0 (toyConnect 1 100 8 true) ++ toyOn 1 (toyConnect 1 101 7 true ++ toyConnect 2 102 8 true)

example : ∃ f f' c d, toyTwo.run toyFleet toyTaken = .ok f ∧ f.conn 0 1 = some c ∧ toyFleet.remote 0 c = some 1 ∧ 1 < f.nodes.length ∧
    0 < c.passes toySrv [⟨toyText 107 120, [42]⟩] ∧ f.conn 1 1 = some d ∧ d.contract = .ok 7 ∧
    f.run toyFleet (toyOn 0 [.packet 1 (.publish ⟨5, 0, [⟨toyText 107 120, [42]⟩]⟩)] ++
      toyOn 1 [.packet 1 (.subscribe 3 [⟨toyText 107 120, 0, 0⟩]), .packet 2 (.publish ⟨5, 0, [⟨toyText 107 120, [9]⟩]⟩)]) = .ok f' ∧
    f'.received 1 1 = [.connack true, .acked 3, .pub ⟨5, 0, [⟨[120], [9]⟩]⟩] := by
  have h : (toyTwo.run toyFleet toyTaken).toOption.any (fun f => ((f.conn 0 1).any fun c => decide (toyFleet.remote 0 c = some 1 ∧ 1 < f.nodes.length ∧
      0 < c.passes toySrv [⟨toyText 107 120, [42]⟩])) && ((f.conn 1 1).any fun d => decide (d.contract = .ok 7)) &&
      (f.run toyFleet (toyOn 0 [.packet 1 (.publish ⟨5, 0, [⟨toyText 107 120, [42]⟩]⟩)] ++
        toyOn 1 [.packet 1 (.subscribe 3 [⟨toyText 107 120, 0, 0⟩]), .packet 2 (.publish ⟨5, 0, [⟨toyText 107 120, [9]⟩]⟩)])).toOption.any fun f' =>
          decide (f'.received 1 1 = [.connack true, .acked 3, .pub ⟨5, 0, [⟨[120], [9]⟩]⟩])) = true := by decide +kernel
  obtain ⟨f, h1, h2⟩ := (Option.any_eq_true _ _).1 h
  simp only [Bool.and_eq_true] at h2
  obtain ⟨⟨h2, h3⟩, h4⟩ := h2
  obtain ⟨c, hc, h2⟩ := (Option.any_eq_true _ _).1 h2
  obtain ⟨d, hd, h3⟩ := (Option.any_eq_true _ _).1 h3
  obtain ⟨f', hf, h4⟩ := (Option.any_eq_true _ _).1 h4
  obtain ⟨g1, g2, g3⟩ := of_decide_eq_true h2
  exact ⟨f, f', c, d, fleet_of_toOption h1, hc, g1, g2, g3, hd, of_decide_eq_true h3, fleet_of_toOption hf, of_decide_eq_true h4⟩

/-- C88, violated: a client publishes at the node that owns its contract; a reader of the topic at the other node gets nothing. On one server it gets both messages. -/
theorem C88_unreached_violated :
    ((toyTwo.run toyFleet (toyOn 0 (toyConnect 5 101 8 true ++ [.packet 5 (.subscribe 3 [⟨toyKeyed, 0, 0⟩])]) ++ toyOn 1 (toyConnect 1 100 8 true ++
      [.packet 1 (.publish ⟨5, 0, [⟨toyKeyed, [42]⟩, ⟨toyKeyed, [43]⟩]⟩)]))).toOption.map fun f => f.received 0 5) = some [.connack true, .acked 3] ∧
    ((toyTwo.run toyFleet (toyOn 1 (toyConnect 5 101 8 true ++ [.packet 5 (.subscribe 3 [⟨toyKeyed, 0, 0⟩])]) ++ toyOn 1 (toyConnect 1 100 8 true ++
      [.packet 1 (.publish ⟨5, 0, [⟨toyKeyed, [42]⟩, ⟨toyKeyed, [43]⟩]⟩)]))).toOption.map fun f => f.received 1 5) =
      some [.connack true, .acked 3, .pub ⟨5, 0, [⟨[120], [42]⟩]⟩, .pub ⟨5, 0, [⟨[120], [43]⟩]⟩] := by decide +kernel

/-- C88, violated: each message of a packet forwards the whole packet, so that a reader at the owner gets each of two messages twice. -/
theorem C88_twice_violated :
    ((toyTwo.run toyFleet (toyOn 1 (toyConnect 5 101 8 true ++ [.packet 5 (.subscribe 3 [⟨toyKeyed, 0, 0⟩])]) ++ toyOn 0 (toyConnect 1 100 8 true ++
      [.packet 1 (.publish ⟨5, 0, [⟨toyKeyed, [42]⟩, ⟨toyKeyed, [43]⟩]⟩)]))).toOption.map fun f => f.received 1 5) =
      some [.connack true, .acked 3, .pub ⟨5, 0, [⟨[120], [42]⟩]⟩, .pub ⟨5, 0, [⟨[120], [43]⟩]⟩, .pub ⟨5, 0, [⟨[120], [42]⟩]⟩, .pub ⟨5, 0, [⟨[120], [43]⟩]⟩] := by decide +kernel

/-- C88, violated: what a client that connected without checks publishes is checked at the owner, which does not know of it, and refused; no one is told. -/
theorem C88_insecure_violated :
    ((toyTwo.run toyFleet (toyOn 1 (toyConnect 5 101 8 true ++ [.packet 5 (.subscribe 3 [⟨toyText 107 120, 0, 0⟩])]) ++ toyOn 0 (toyConnect 1 100 8 true ++
      [.packet 1 (.publish ⟨5, 0, [⟨toyText 107 120, [42]⟩]⟩)]))).toOption.map fun f => (f.received 1 5, f.received 0 1)) =
      some ([.connack true, .acked 3], [.connack true, .acked 5]) := by decide +kernel

/-- `C88_home_partial` for clients of two contracts at their nodes. -/
def toyHomely : List (Nat × SrvEv) :=
  toyOn 1 (toyConnect 5 101 8 true) ++ toyOn 0 (toyConnect 1 100 7 true) ++ [(1, .packet 5 (.subscribe 3 [⟨toyText 107 120, 0, 0⟩])), (0, .packet 1 (.publish ⟨5, 0, [⟨toyText 107 120, [42]⟩]⟩)),
    (1, .packet 5 (.publish ⟨6, 0, [⟨toyText 107 120, [43]⟩]⟩))]

def homeB (v : FleetEnv) (f : Fleet) (e : Nat × SrvEv) : Bool :=
  match e.2 with
  | .packet q _ => (f.conn e.1 q).all fun c => (v.remote e.1 c).isNone
  | _ => true

def homelyB (v : FleetEnv) : Fleet → List (Nat × SrvEv) → Option Fleet
  | f, [] => some f
  | f, e :: es =>
    if homeB v f e then (f.step v e.1 e.2).toOption.bind fun f' => homelyB v f' es
    else none

theorem homelyB_sound {v : FleetEnv} (evs : List (Nat × SrvEv)) : ∀ {f f' : Fleet}, homelyB v f evs = some f' → Spec.Homely v f evs ∧ f.run v evs = .ok f' := by
  induction evs with
  | nil => intro f f' h; injection h with h; subst h; exact ⟨trivial, rfl⟩
  | cons e es ih =>
    intro f f' h
    rw [homelyB] at h
    split at h
    · next hb =>
      obtain ⟨f1, h1, h2⟩ := Option.bind_eq_some_iff.1 h
      have h1 := fleet_of_toOption h1
      obtain ⟨g1, g2⟩ := ih h2
      refine ⟨⟨?_, fun f2 hf2 => ?_⟩, ?_⟩
      · obtain ⟨n, ev⟩ := e
        cases ev with
        | accept q => trivial
        | lost q => trivial
        | packet q p =>
          intro c k hc hk
          simp only [homeB, hc, Option.all_some, FleetEnv.remote, hk] at hb
          split at hb
          · assumption
          · cases hb
      · rw [h1] at hf2; injection hf2 with hf2; subst hf2; exact g1
      · rw [Fleet.run, SrvM.fold, h1]; exact g2
    · cases h

example : ∃ f, Spec.Homely toyFleet toyTwo toyHomely ∧ toyTwo.run toyFleet toyHomely = .ok f ∧ f.received 1 5 = [.connack true, .acked 3, .pub ⟨6, 0, [⟨[120], [43]⟩]⟩, .acked 6] := by
  have h : (homelyB toyFleet toyTwo toyHomely).any (fun f => decide (f.received 1 5 = [.connack true, .acked 3, .pub ⟨6, 0, [⟨[120], [43]⟩]⟩, .acked 6])) = true := by decide +kernel
  obtain ⟨f, h1, h2⟩ := (Option.any_eq_true _ _).1 h
  exact ⟨f, (homelyB_sound _ h1).1, (homelyB_sound _ h1).2, of_decide_eq_true h2⟩

/-- The hypotheses of `C88_elsewhere_violated` and `C88_kept_violated`, with a reader at a third node. -/
example : ∃ f f' c, (({ nodes := [{}, {}, {}] } : Fleet).run toyFleet (toyOn 2 (toyConnect 5 101 8 true ++ [.packet 5 (.subscribe 3 [⟨toyKeyed, 0, 0⟩])]) ++ toyOn 0 (toyConnect 1 100 8 true))) = .ok f ∧
    f.conn 0 1 = some c ∧ toyFleet.remote 0 c = some 1 ∧ c.again toyKeyed = false ∧ f.step toyFleet 0 (.packet 1 (.publish ⟨5, 0, [⟨toyKeyed, [42]⟩]⟩)) = .ok f' := by
  have h : (({ nodes := [{}, {}, {}] } : Fleet).run toyFleet (toyOn 2 (toyConnect 5 101 8 true ++ [.packet 5 (.subscribe 3 [⟨toyKeyed, 0, 0⟩])]) ++ toyOn 0 (toyConnect 1 100 8 true))).toOption.any
      (fun f => ((f.conn 0 1).any fun c => decide (toyFleet.remote 0 c = some 1 ∧ c.again toyKeyed = false)) &&
        (f.step toyFleet 0 (.packet 1 (.publish ⟨5, 0, [⟨toyKeyed, [42]⟩]⟩))).toOption.isSome) = true := by decide +kernel
  obtain ⟨f, h1, h2⟩ := (Option.any_eq_true _ _).1 h
  rw [Bool.and_eq_true] at h2
  obtain ⟨c, hc, h3⟩ := (Option.any_eq_true _ _).1 h2.1
  obtain ⟨f', hf'⟩ := Option.isSome_iff_exists.1 h2.2
  obtain ⟨g1, g2⟩ := of_decide_eq_true h3
  exact ⟨f, f', c, fleet_of_toOption h1, hc, g1, g2, fleet_of_toOption hf'⟩

end Verif
