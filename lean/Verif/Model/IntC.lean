import Verif.Model.Component

/-! # C `int` arithmetic of `np.prod(shape, dtype=np.intc)` -/

namespace Ceacoest

/-- Conversion to a 32 bit C `int`: wrap-around in two's complement, as NumPy integers do. -/
def toIntC (x : Int) : Int := (x + 2 ^ 31) % 2 ^ 32 - 2 ^ 31

/-- optim.py:292-295 `Component.size`, with the C `int` accumulator (col.py:74-77, oc.py:50-53 are the same). -/
def Component.sizeIntC (c : Component) : Int := c.shape.foldl (fun (acc : Int) (n : Nat) => toIntC (acc * toIntC n)) 1

end Ceacoest
