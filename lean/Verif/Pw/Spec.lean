/- Specification of piecewise polynomial trees: the list of their leaves from left to right, and the function it describes. -/
import Verif.Pw.Model
import Verif.Poly.Spec
import Mathlib.Data.List.Forall2

namespace C3.Pw
open C3.Poly (Ope)
variable {K : Type} [Field K] [LinearOrder K]

mutual
/-- Leaves from left to right. -/
def Pw.leaves : Pw K → List (Ope K)
  | .leaf f => [f]
  | .node bs => leavesL bs
/-- Leaves of a list of branches. -/
def leavesL : List (Pw K) → List (Ope K)
  | [] => []
  | b :: bs => Pw.leaves b ++ leavesL bs
end

mutual
/-- No inner node is without branches. -/
def Pw.Full : Pw K → Prop
  | .leaf _ => True
  | .node bs => bs ≠ [] ∧ FullL bs
/-- All branches are full. -/
def FullL : List (Pw K) → Prop
  | [] => True
  | b :: bs => Pw.Full b ∧ FullL bs
end

/-- The pieces cover consecutive intervals. -/
def Consec (ls : List (Ope K)) : Prop := List.IsChain (fun f g => f.ub = g.lb) ls ∧ ∀ f ∈ ls, f.lb < f.ub

/-- Trees as the library builds them: usable expansions on consecutive intervals. -/
structure Pw.Ok (p : Pw K) : Prop where
  full : p.Full
  consec : Consec p.leaves
  wf : ∀ f ∈ p.leaves, f.WF
  krist : ∀ f ∈ p.leaves, f.krist = false

/-- The piecewise function of a list of pieces: the value of the first piece whose upper bound, enlarged by `tol`, exceeds the point. -/
def pieceVal (tol : K) (ls : List (Ope K)) (x : K) : K := ((ls.find? fun f => decide (x < f.ub + tol)).map fun f => f.val x).getD 0

end C3.Pw
