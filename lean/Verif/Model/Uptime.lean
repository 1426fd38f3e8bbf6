import Verif.Model.WalName

/-!
# The time a database or server has been up, as shown

meter.go:118-139, memdb/meter.go:91-112 and server/internal/monitor.go:95-116: three copies of the same function.
-/

namespace Verif

/-- `%d` of fmt.Sprintf. -/
def decimalText (i : Int) : Bytes :=
  if i < 0 then 45 :: Wal.decimalDigits i.natAbs else Wal.decimalDigits i.natAbs

def chY : UInt8 := 121
def chD : UInt8 := 100
def chH : UInt8 := 104
def chM : UInt8 := 109
def chS : UInt8 := 115

/-- meter.go:118-139 `uptime` of a number of nanoseconds; `/` and `%` of Go round towards zero. -/
def uptime (d : Int) : Bytes :=
  let tsecs := d.tdiv 1000000000
  let tmins := tsecs.tdiv 60
  let thrs := tmins.tdiv 60
  let tdays := thrs.tdiv 24
  let tyrs := tdays.tdiv 365
  if 0 < tyrs then
    decimalText tyrs ++ chY :: (decimalText (tdays.tmod 365) ++ chD :: (decimalText (thrs.tmod 24) ++ chH ::
      (decimalText (tmins.tmod 60) ++ chM :: (decimalText (tsecs.tmod 60) ++ [chS]))))
  else if 0 < tdays then
    decimalText tdays ++ chD :: (decimalText (thrs.tmod 24) ++ chH :: (decimalText (tmins.tmod 60) ++ chM ::
      (decimalText (tsecs.tmod 60) ++ [chS])))
  else if 0 < thrs then
    decimalText thrs ++ chH :: (decimalText (tmins.tmod 60) ++ chM :: (decimalText (tsecs.tmod 60) ++ [chS]))
  else if 0 < tmins then decimalText tmins ++ chM :: (decimalText (tsecs.tmod 60) ++ [chS])
  else decimalText tsecs ++ [chS]

end Verif
