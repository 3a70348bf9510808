import Verif.Model.Sessions

/-
What the calls of `next` on a generator should do, one after the other, given what it yields when it is exhausted at once.
-/
namespace CovPred

variable {τ L : Type} [LinearOrder τ] {n K : ℕ}

/-- The `k`-th call of `next`: the `k`-th item; after the last one the exception, if there is one, once; then
`StopIteration`. -/
def Trace.out {A : Type} (tr : Trace A) (k : ℕ) : NextOut A :=
  match tr.items[k]? with
  | some x => .item x
  | none => if k = tr.items.length then (match tr.err with
    | some e => .raises e
    | none => .stop) else .stop

/-- without the labels -/
def NextOut.plain : NextOut (SolveItem τ L n K) → NextOut (Result τ n K)
  | .item x => .item (x.map Prod.fst)
  | .raises e => .raises e
  | .stop => .stop

/-- the number of calls of `next` on the `i`-th generator -/
def nexts (i : ℕ) : List (SolveOp τ L n K) → ℕ
  | [] => 0
  | .next j :: ops => (if j = i then 1 else 0) + nexts i ops
  | _ :: ops => nexts i ops

/-- The operation is `next` on the `i`-th generator or a change of the data it has been given. -/
def SolveOp.concerns (i : ℕ) : SolveOp τ L n K → Bool
  | .solve _ _ _ => false
  | .next j => decide (j = i)
  | .setTimes j _ => decide (j = i)
  | .setReturns _ => true
  | .setKeys _ => true

end CovPred
