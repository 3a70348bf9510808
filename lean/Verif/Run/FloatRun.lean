import Verif.Num.FloatInst
import Verif.Model.Ewma

/-
Runs the EWMA model on `Float`s (a test of the fidelity of the model, not a proof):
`lake env lean --run Verif/Run/FloatRun.lean FILE`.
The file holds, one number per line: n, T, vola_halflife, cov_halflife, min_periods_vola, min_periods_cov,
mean (0/1), clip_at (0 = None), then T*n returns; all floats are given by their IEEE bits as decimal integers.
It prints the number of results, then the last covariance, mean and volatility as IEEE bits.
Driven by `/verif/tools/float_check.py`.
-/
open CovPred

def readNats (path : String) : IO (Array Nat) := do
  let s ← IO.FS.readFile path
  return ((s.splitOn "\n").filterMap String.toNat?).toArray

def runFile (path : String) : IO Unit := do
  let d ← readNats path
  let fl (k : Nat) : Float := Float.ofBits (d[k]!).toUInt64
  let n := d[0]!
  let T := d[1]!
  let clip := fl 7
  let args : IewmaArgs Float :=
    { volaHalflife := fl 2, covHalflife := fl 3, minPeriodsVola := d[4]!, minPeriodsCov := d[5]!,
      mean := d[6]! == 1, clipAt := if clip == 0.0 then none else some clip }
  let frame : Frame Nat (Fin n) Float :=
    (List.range T).map fun t => (t, Arr.ofFn fun i => fl (8 + t * n + i))
  match iteratedEwma frame args with
  | .error e => IO.println s!"error {repr e}"
  | .ok rs =>
    IO.println s!"{rs.length}"
    match rs.getLast? with
    | none => IO.println "empty"
    | some r =>
      IO.println s!"{r.time}"
      for x in r.covariance.data do IO.println s!"{x.toBits}"
      for x in r.mean.data do IO.println s!"{x.toBits}"
      for x in r.volatility.data do IO.println s!"{x.toBits}"

def main (args : List String) : IO Unit := do
  for a in args do runFile a
