import Verif.Model.Optim

/-! # Specification of registration histories and vector layouts (C01 – C04, C07) -/

namespace Ceacoest.Spec
variable {α : Type}

/-- The variable name a call tries to register (objectives, constraints and non-string names have none). -/
def callName : Problem.Call α → Option String
  | .decision (.str s) _ => some s
  | .dependent (.str s) _ => some s
  | _ => none

/-- The calls whose variable name was not used by an earlier call. -/
def firstUses (calls : List (Problem.Call α)) : List (Problem.Call α) :=
  (List.range calls.length).filterMap fun i =>
    match calls[i]? with
    | none => none
    | some c =>
      match callName c with
      | none => none
      | some s => if (calls.take i).any (fun c' => callName c' = some s) then none else some c

/-- Declared names and shapes of the decision variables. -/
def decisions (calls : List (Problem.Call α)) : List (String × List Nat) :=
  (firstUses calls).filterMap fun
    | .decision (.str s) sh => some (s, sh.norm)
    | _ => none

/-- Declared names and specifications of the dependent variables. -/
def dependents (calls : List (Problem.Call α)) : List (String × VarSpec) :=
  (firstUses calls).filterMap fun
    | .dependent (.str s) v => some (s, v)
    | _ => none

/-- Declared constraint functions, with shapes and argument lists. -/
def constraintCalls (calls : List (Problem.Call α)) : List (GenFun α × List Nat × Option (List String)) :=
  calls.filterMap fun
    | .constraint f sh a => some (f, sh.norm, a)
    | _ => none

/-- Blocks `(start, size)` tile `[0, total)` in order without gaps. -/
def Tiles (blocks : List (Nat × Nat)) (total : Nat) : Prop :=
  (∀ k (h : k < blocks.length), blocks[k].1 = ((blocks.take k).map Prod.snd).sum) ∧
  total = (blocks.map Prod.snd).sum

/-- C-order flat index of a multi-index. -/
def cOrder : List Nat → List Nat → Nat
  | _ :: sh, i :: is => i * sh.prod + cOrder sh is
  | _, _ => 0

/-- Multi-index in bounds. -/
def InBounds : List Nat → List Nat → Prop
  | [], [] => True
  | n :: sh, i :: is => i < n ∧ InBounds sh is
  | _, _ => False

end Ceacoest.Spec

namespace Ceacoest.Spec

/-- A problem obtained from a new one by registration calls; subclasses add constant entries to `variables`. -/
def Reachable {α : Type} (p : Problem α) : Prop := ∃ calls extra, p = { Problem.run calls with extra := extra }

/-- The source multi-index read by entry `idx` of a broadcast array: leading axes are dropped, axes of length one are
read at 0. -/
def bcMulti (src idx : List Nat) : List Nat :=
  List.zipWith (fun s i => if s = 1 then 0 else i) src (idx.drop (idx.length - src.length))

end Ceacoest.Spec

namespace Ceacoest.Spec

/-- NumPy's broadcasting rule for two shapes: axes are aligned at the last one, missing axes count as length one, two
lengths must agree unless one of them is one, and the other length is taken. -/
def BroadcastShape (s t sh : List Nat) : Prop :=
  sh.length = max s.length t.length ∧ ∀ k < sh.length,
    (s.reverse.getD k 1 = t.reverse.getD k 1 ∨ s.reverse.getD k 1 = 1 ∨ t.reverse.getD k 1 = 1) ∧
    sh.reverse.getD k 1 = if s.reverse.getD k 1 = 1 then t.reverse.getD k 1 else s.reverse.getD k 1

end Ceacoest.Spec
