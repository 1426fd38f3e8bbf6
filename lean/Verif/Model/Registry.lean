import Verif.Base.AMap
import Verif.Base.Bytes

/-!
# The registry of metrics

server/internal/pkg/metrics/metrics.go and counter.go, with any number of goroutines. A call of `GetOrRegister` takes two steps, one under the read lock
and one under the write lock; adding to a counter is atomic. Metrics are made lazily, as `GetOrRegisterCounter` and its likes ask for it.
-/

namespace Verif

/-- The kinds of metrics. -/
inductive MetricKind where
  | counter | gauge | histogram | series
  deriving DecidableEq, Repr

/-- A metric: the number of the object and its kind. -/
structure Metric where
  id : Nat
  kind : MetricKind
  deriving DecidableEq, Repr

/-- metrics.go:111-120 `register`: which kinds the map takes (none of the interfaces is met by the type of another kind). -/
def MetricKind.kept : MetricKind → Bool
  | .counter | .gauge => true
  | .histogram | .series => false

/-- metrics.go:57-60: the map and the objects made so far with the values of the counters; which goroutine waits for the write lock in a call, the metrics
the calls returned by goroutine and name, and what was added, by the name the counter was asked for. -/
structure MetricReg where
  reg : AMap Bytes Metric := []
  made : Nat := 0
  value : AMap Nat UInt64 := []
  waits : AMap Nat (Bytes × MetricKind) := []
  held : AMap (Nat × Bytes) Metric := []
  added : List (Bytes × UInt64) := []

/-- counter.go:77-79 `Count`. -/
def MetricReg.count (r : MetricReg) (id : Nat) : UInt64 := (AMap.get r.value id).getD 0

/-- counter.go:32-34, gauage.go:30-32, histogram.go:45-47, timeseries.go:50-52: the answer must be of the kind asked for; otherwise the type assertion
panics. -/
def MetricReg.answer (r : MetricReg) (t : Nat) (name : Bytes) (kind : MetricKind) (m : Metric) : Option MetricReg :=
  if m.kind = kind then some { r with held := AMap.set r.held (t, name) m } else none

/-- metrics.go:73-78: goroutine `t` asks for a metric and looks under the read lock. -/
def MetricReg.look (r : MetricReg) (t : Nat) (name : Bytes) (kind : MetricKind) : Option MetricReg :=
  match AMap.get r.waits t with
  | some _ => some r
  | none =>
    match AMap.get r.reg name with
    | some m => r.answer t name kind m
    | none => some { r with waits := AMap.set r.waits t (name, kind) }

/-- metrics.go:81-90 with `register`: the same goroutine under the write lock. -/
def MetricReg.settle (r : MetricReg) (t : Nat) : Option MetricReg :=
  match AMap.get r.waits t with
  | none => some r
  | some (name, kind) =>
    let r := { r with waits := AMap.del r.waits t }
    match AMap.get r.reg name with
    | some m => r.answer t name kind m
    | none =>
      let m : Metric := ⟨r.made, kind⟩
      let r := { r with made := r.made + 1 }
      (if kind.kept then { r with reg := AMap.set r.reg name m } else r).answer t name kind m

/-- counter.go:82-89 `Dec` and `Inc` of the counter goroutine `t` got for `name`. -/
def MetricReg.add (r : MetricReg) (t : Nat) (name : Bytes) (d : UInt64) : MetricReg :=
  match AMap.get r.held (t, name) with
  | some ⟨id, .counter⟩ => { r with value := AMap.set r.value id (r.count id + d), added := (name, d) :: r.added }
  | _ => r

/-- What happens. -/
inductive MetricEv where
  | look (t : Nat) (name : Bytes) (kind : MetricKind)
  | settle (t : Nat)
  | add (t : Nat) (name : Bytes) (d : UInt64)
  | unregister (name : Bytes)
  | unregisterAll

/-- metrics.go:94-109 for the last two; no kind in the map can be stopped. -/
def MetricReg.step (r : MetricReg) : MetricEv → Option MetricReg
  | .look t name kind => r.look t name kind
  | .settle t => r.settle t
  | .add t name d => some (r.add t name d)
  | .unregister name => some { r with reg := AMap.del r.reg name }
  | .unregisterAll => some { r with reg := [] }

/-- `none`: a goroutine panicked. -/
def MetricReg.run (r : MetricReg) (evs : List MetricEv) : Option MetricReg := evs.foldlM MetricReg.step r

end Verif
