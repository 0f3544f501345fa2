import Verif.Model.Aliasing

/-!
# What the arrays returned by `variables` hold, without memory

The decision arrays have no content of their own: they are parts of the decision vector.  The arrays of the dependent variables are made
by each call and belong to it.
-/

namespace Ceacoest.Spec
variable {α : Type}

/-- The decision vector, the number of calls of `variables`, and for every call the arrays of the dependent variables. -/
structure Contents (α : Type) where
  dvec : List α
  calls : Nat
  own : Nat → String → Option (NDArray α)

/-- The variable of that name. -/
def specOf (p : Problem α) (name : String) : Option VarSpec := ((p.decision.get? name).map .comp).or (p.remapped.get? name)

/-- The content of a new array for a variable; none if it has no array of its own. -/
def ownArray [Zero α] (d : List α) : Option VarSpec → Option (NDArray α)
  | none => none
  | some (.comp _) => none
  | some v => match v.unpackFrom d with
    | .ok a => some a
    | .error _ => none

/-- What an operation does. -/
def Contents.step [Zero α] (p : Problem α) (s : Contents α) : MemOp α → Contents α
  | .variables => ⟨s.dvec, s.calls + 1, fun r name => if r = s.calls then ownArray s.dvec (specOf p name) else s.own r name⟩
  | .assign call name i x => match specOf p name with
    | some (.comp c) => { s with dvec := s.dvec.set (c.offset + i) x }
    | _ => { s with own := fun r n => if r = call ∧ n = name then (s.own r n).map fun a => ⟨a.shape, a.data.set i x⟩ else s.own r n }

/-- What a sequence of operations does, starting with the decision vector `d`. -/
def Contents.run [Zero α] (p : Problem α) (ops : List (MemOp α)) (d : List α) : Contents α :=
  ops.foldl (Contents.step p) ⟨d, 0, fun _ _ => none⟩

end Ceacoest.Spec
