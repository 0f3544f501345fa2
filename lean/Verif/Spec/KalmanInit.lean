/-! # What an option of a filter means -/

namespace Ceacoest.Spec

/-- The attribute `attr` set from an option: the value given, converted; else what the model's method of that purpose returns;
else the default.  `meth = none`: there is no such method. -/
structure RightInit {V : Type} (given : Option V) (conv : V → V) (meth : Option V) (default attr : V) : Prop where
  of_given : ∀ v, given = some v → attr = conv v
  of_method : given = none → ∀ v, meth = some v → attr = v
  of_default : given = none → meth = none → attr = default

/-- The value of an option of one of the transforms: the one with the prefix, else the one without. -/
def prefixed {V : Type} (value : List Char → Option V) (pre name : List Char) : Option V := (value (pre ++ name)).or (value name)

end Ceacoest.Spec
