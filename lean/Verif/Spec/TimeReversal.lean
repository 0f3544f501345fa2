import Verif.Spec.Transcription

/-! # Control problems with time running backwards (C91) -/

namespace Ceacoest.Spec

/-- The times `T - t`, in increasing order again. -/
def reversedTimes (T : ℝ) (t : List ℝ) : List ℝ := (t.map (T - ·)).reverse

/-- The two end points, in the other order. -/
def swapEnds (nx : Nat) (xe : List ℝ) : List ℝ := xe.drop nx ++ xe.take nx

/-- The problem for the reversed motions: the states change with the opposite rates, the first state is the last one and the last the first. -/
def OCFunctions.reversed (F : OCFunctions) (nx : Nat) : OCFunctions where
  f x u p := (F.f x u p).map (- ·)
  L := F.L
  M xe p := F.M (swapEnds nx xe) p
  g := F.g
  h xe p := F.h (swapEnds nx xe) p

/-- The decision vector with the states and inputs of all points in reverse order. -/
def ocReversed (P N nx nu np : Nat) (d : List ℝ) : List ℝ :=
  ((List.range (P * N + 1)).flatMap fun r => ocX nx d (P * N - r)) ++ ((List.range (P * N + 1)).flatMap fun r => ocU P N nx nu d (P * N - r)) ++
    ocP P N nx nu np d

end Ceacoest.Spec
