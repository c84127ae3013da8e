/-
Sobol sensitivities (c3/lib_probability/probability.c:58-590). Exact arithmetic. `size_t` wraps at 2^64 where the code relies on it.
The tree of `struct SInteract` lives inside `sobol->interactions`; a pointer into it is the list of indices leading to the node.
-/
import Verif.Ft.Subset

namespace C3.Prob
variable {K : Type}

/-- `k - 1` for `size_t k`. -/
def pred64 (k : Nat) : Nat := if k = 0 then 2 ^ 64 - 1 else k - 1

/-- probability.c:111-133 `n_choose_k_no_order`: the loop over `ii` from `s`, appending to `list`; `prev` is the block of indices chosen before.
The recursive call of the else branch is made for `k = 0` as well, with `k - 1` wrapped around. -/
def nck (n k s : Nat) (prev : List Nat) (list : List (List Nat)) : List (List Nat) :=
  if s < n then
    nck n k (s + 1) prev (if k = 1 then list ++ [prev ++ [s]] else nck n (pred64 k) (s + 1) (prev ++ [s]) list)
  else list
termination_by n - s

/-- probability.c:222-240 `struct SInteract`. `null` stands for NULL and for the pointers of `interactions` not yet set; `sub = none` is `set_sub = 0`;
`leaves = []` is also the NULL array of a node without leaves. -/
inductive SI (K : Type) where
  | null
  | node (val : Nat) (label : List Nat) (vari : K) (sub : Option K) (leaves : List (SI K))

/-- A dereferenced pointer. -/
def SI.walk : SI K → List Nat → C (SI K)
  | .null, _ => .error .null
  | s@(.node ..), [] => .ok s
  | .node _ _ _ _ ls, i :: is => do
    let c ← rd ls i
    c.walk is

/-- Follow a pointer from the array of trees. -/
def nodeAt (head : List (SI K)) : List Nat → C (SI K)
  | [] => .error .null
  | i :: is => do
    let c ← rd head i
    c.walk is

/-- Assign through a pointer. -/
def SI.modify (g : SI K → C (SI K)) : SI K → List Nat → C (SI K)
  | .null, _ => .error .null
  | s@(.node ..), [] => g s
  | .node v l x s ls, i :: is => do
    let c ← rd ls i
    let c' ← c.modify g is
    let ls ← wr ls i c'
    pure (.node v l x s ls)

def modAt (g : SI K → C (SI K)) (head : List (SI K)) : List Nat → C (List (SI K))
  | [] => .error .null
  | i :: is => do
    let c ← rd head i
    let c' ← c.modify g is
    wr head i c'

/-- probability.c:254-289 `sinteract_create`; `var` is `function_train_sobol_interact_var` of the train. -/
def siCreate (var : List Nat → C K) (val nleaves : Nat) (prev : List Nat) : C (SI K) := do
  let label := prev ++ [val]
  let x ← var label
  pure (.node val label x none (List.replicate nleaves .null))

/-- probability.c:304-321 `sinteract_get_sensitivity`; `vars` is the rest of the array, of length `distance`. `vars[0] - si->val - 1` wraps around to an index
outside of the array when the variables do not increase. -/
def getSens [Sub K] : SI K → List Nat → C K
  | .null, _ => .error .null
  | .node _ _ x (some s) _, [] => .ok (x - s)
  | .node _ _ x none _, [] => .ok x
  | .node val _ _ _ ls, v :: vars =>
    if v ≤ val then .error .oob
    else do
      let c ← rd ls (v - val - 1)
      getSens c vars

/-- `si->vari`. -/
def SI.getVari : SI K → C K
  | .null => .error .null
  | .node _ _ x _ _ => .ok x

/-- probability.c:512-523 `c3_sobol_sensitivity_get_interaction`; `ninteract` is the length of `vars`. -/
def getInteraction [Sub K] (head : List (SI K)) : List Nat → C K
  | [] => .error .oob
  | [v] => do
    let s ← rd head v
    s.getVari
  | v :: vars => do
    let s ← rd head v
    getSens s vars

/-- probability.c:540-543 `c3_sobol_sensitivity_get_main`. -/
def getMain (head : List (SI K)) (v : Nat) : C K := do
  let s ← rd head v
  s.getVari

/-- The label of a node. -/
def SI.getLabel : SI K → C (List Nat)
  | .null => .error .null
  | .node _ l _ _ _ => .ok l

/-- probability.c:376-389: the loop over one list of index vectors. -/
def subLoop [Field K] (head : List (SI K)) (label : List Nat) : List (List Nat) → K → C K
  | [], acc => .ok acc
  | l :: ls, acc => do
    let vars ← l.mapM (rd label)
    let vari ← getInteraction head vars
    subLoop head label ls (acc + vari)

def setSub (s : K) : SI K → C (SI K)
  | .null => .error .null
  | .node v l x _ ls => .ok (.node v l x (some s) ls)

/-- probability.c:365-397 `sinteract_compute_var_subtract`. -/
def computeSub [Field K] (head : List (SI K)) (addr : List Nat) : C (List (SI K)) := do
  let e ← nodeAt head addr
  let label ← e.getLabel
  let s ← forN label.length (fun jj acc => subLoop head label (nck label.length jj 0 [] []) acc) 0
  modAt (setSub s) head addr

def setLeaf (which : Nat) (new : SI K) : SI K → C (SI K)
  | .null => .error .null
  | .node v l x s ls => do
    let ls ← wr ls which new
    pure (.node v l x s ls)

/-- probability.c:350-362 `sinteract_push`. -/
def push (var : List Nat → C K) (head : List (SI K)) (addr : List Nat) (val which nleaves : Nat) : C (List (SI K)) := do
  let e ← nodeAt head addr
  let label ← e.getLabel
  let new ← siCreate var val nleaves label
  modAt (setLeaf which new) head addr

/-- probability.c:399-424 `get_combination`. The descending loop `ii >= start` never ends for `start = 0`, which does not occur; the fuel bounds the depth. -/
def getComb [Field K] (var : List Nat → C K) (num : Nat) : Nat → Nat → Nat → List Nat → List (SI K) → C (List (SI K))
  | 0, _, _, _, _ => .error .diverge
  | fuel + 1, left, start, addr, head => do
    let head ← computeSub head addr
    if left = 1 then
      forR start num (fun ii head => do
        let head ← push var head addr ii (ii - start) 0
        computeSub head (addr ++ [ii - start])) head
    else if start = 0 then .error .diverge
    else
      forN (num - start) (fun j head => do
        let ii := num - 1 - j
        let head ← push var head addr ii (ii - start) (num - ii - 1)
        getComb var num fuel (pred64 left) (ii + 1) (addr ++ [ii - start]) head) head

/-- probability.c:454-458: the loop of `c3_sobol_sensitivity_calculate` that builds the trees. -/
def sobolTree [Field K] (var : List Nat → C K) (dim order : Nat) : C (List (SI K)) :=
  forN dim (fun ii head => do
    let new ← siCreate var (dim - 1 - ii) (dim - 1) []
    let head ← wr head (dim - 1 - ii) new
    getComb var dim (dim + 1) (pred64 order) (dim - ii) [dim - 1 - ii] head) (List.replicate dim .null)

/-- Division; not a number is not represented. -/
def pdiv [Field K] [DecidableEq K] (a b : K) : C K := if b = 0 then .error .ub else .ok (a / b)

/-- `struct C3SobolSensitivity` (probability.c:154-163). -/
structure Sobol (K : Type) where
  dim : Nat
  total : List K
  variance : K
  order : Nat
  tree : List (SI K)

/-- probability.c:434-479 `c3_sobol_sensitivity_calculate`; `whole` is the variance of the train, `without ii` that of the train integrated over variable `ii`. -/
def sobolCalc [Field K] [DecidableEq K] (var : List Nat → C K) (whole : C K) (without : Nat → C K) (dim order : Nat) : C (Sobol K) := do
  let tree ← sobolTree var dim order
  let v ← whole
  let tot ← forN dim (fun ii t => do
    let vari ← without ii
    let q ← pdiv (v - vari) v
    wr t ii q) (List.replicate dim 0)
  pure ⟨dim, tot, v, order, tree⟩

mutual
/-- probability.c:335-348 `sinteract_apply_external`: the calls of `f`, in order. -/
def SI.calls [Sub K] : SI K → List (K × List Nat)
  | .null => []
  | .node _ l x s ls => (match s with | some s => (x - s, l) | none => (x, l)) :: callsL ls
def callsL [Sub K] : List (SI K) → List (K × List Nat)
  | [] => []
  | s :: ls => s.calls ++ callsL ls
end

section
open C3.Ft
variable {U : Type} [Field K]

/-- Second moment minus the square of the mean (probability.c:185-188, 212-214, 460-462, 469-471). -/
def ftVar (o : LOps K U) (int : U → C K) (inner : U → U → C K) (ft : FT K U) : C K := do
  let fm ← ftInt int ft
  let sm ← ftInner o inner ft ft
  pure (sm - fm * fm)

/-- probability.c:195-208: the dimensions not among `vars`; `size_t` counters, the block has `dim - ninteract` entries. -/
def indContract (dim : Nat) (vars : List Nat) : C (List Nat) := do
  let s ← forN dim (fun ii (s : List Nat × Nat) =>
    if ii ∈ vars then pure s
    else do
      let b ← wr s.1 s.2 ii
      pure (b, s.2 + 1)) (List.replicate (dim - vars.length) 0, 0)
  pure s.1

/-- probability.c:178-219 `function_train_sobol_interact_var`. -/
def interactVar (o : LOps K U) (int : U → C K) (inner : U → U → C K) (ft : FT K U) (vars : List Nat) : C K :=
  if ft.dim = vars.length then ftVar o int inner ft
  else do
    let ind ← indContract ft.dim vars
    let g ← ftIntSubset o int ft ind
    ftVar o int inner g

/-- probability.c:434-479 on a function train. -/
def sobol [DecidableEq K] (o : LOps K U) (int : U → C K) (inner : U → U → C K) (ft : FT K U) (order : Nat) : C (Sobol K) :=
  sobolCalc (interactVar o int inner ft) (ftVar o int inner ft) (fun ii => do
    let g ← ftIntSubset o int ft [ii]
    ftVar o int inner g) ft.dim order
end

end C3.Prob
