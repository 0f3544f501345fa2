import Verif.Model.SymSDEInit
import Verif.Lemmas.Dict
import Verif.Lemmas.Lists

/-! # C96: constructors of the discretised models -/

namespace Ceacoest.SymSDE

/-- A class written by a user for discretisation: it has states, outputs and the time as variables, and drift, diffusion,
measurement function and covariance as functions. -/
structure Discretisable (c : CtSym) : Prop where
  x : ∃ v, Dict.get? c.vars "x" = some v
  y : ∃ v, Dict.get? c.vars "y" = some v
  t : ∃ v, Dict.get? c.vars "t" = some v
  funs : ∀ n ∈ ["h", "R", "f", "g"], ∃ d, Dict.get? c.funs n = some d

/-- The derivatives that the Ito-Taylor scheme needs. -/
def needed : String → Option FunDef
  | "df_dt" => some (.deriv "f" "t")
  | "df_dx" => some (.deriv "f" "x")
  | "d2f_dx2" => some (.deriv "df_dx" "x")
  | _ => none

/-- The function `n`: that of the user if there is one, otherwise the derivative that is needed. -/
def completed (c : CtSym) (n : String) : Option FunDef :=
  match Dict.get? c.funs n with
  | some d => some d
  | none => needed n

theorem initBase_ok {c : CtSym} {x y : SymVar} (d : Option CtSym) (hx : Dict.get? c.vars "x" = some x)
    (hy : Dict.get? c.vars "y" = some y) : initBase (some c) d =
      .ok ⟨Dict.set c.self "dt" (.scalar "dt"), [("k", .scalar "k"), ("x", x), ("y", y)], c⟩ := by
  simp only [initBase, CtSym.attr, py_pure, py_bind_ok, hx, hy]
  rfl

/-- A discretised model has the constants of the continuous-time model and the time step (the continuous-time model keeps its
own constants), the sample index, and the states and outputs of the continuous-time model. -/
theorem C96_variables (c : CtSym) (d : Option CtSym) (h : Discretisable c) :
    ∃ m, initEuler (some c) d = .ok m ∧ m.ct = c ∧
      (∀ n, Dict.get? m.self n = if n = "dt" then some (.scalar "dt") else Dict.get? c.self n) ∧
      ∀ n, Dict.get? m.vars n = if n = "k" then some (.scalar "k") else
        if n = "x" ∨ n = "y" then Dict.get? c.vars n else none := by
  obtain ⟨x, hx⟩ := h.x
  obtain ⟨y, hy⟩ := h.y
  refine ⟨_, initBase_ok d hx hy, rfl, fun n => ?_, fun n => ?_⟩
  · simp only [Dict.get?_set, eq_comm]
  · simp only [Dict.get?_cons, Dict.get?_nil, eq_comm (b := n)]
    by_cases h1 : n = "k"
    · simp [h1]
    · by_cases h2 : n = "x"
      · subst h2; simp [hx]
      · by_cases h3 : n = "y"
        · subst h3; simp [hy]
        · simp [h1, h2, h3]

theorem ensure_ok {c : CtSym} {f wrt name : String} (hf : ∃ d, Dict.get? c.funs f = some d)
    (hw : ∃ v, Dict.get? c.vars wrt = some v) : ∃ c', ensure c f wrt name = .ok c' ∧ c'.self = c.self ∧ c'.vars = c.vars ∧
      (∀ n, Dict.get? c'.funs n = match Dict.get? c.funs n with
        | some d => some d
        | none => if n = name then some (.deriv f wrt) else none) ∧
      ((∃ d, Dict.get? c.funs name = some d) → c' = c) := by
  obtain ⟨v, hv⟩ := hw
  obtain ⟨d, hd⟩ := hf
  unfold ensure Dict.contains
  cases hn : Dict.get? c.funs name with
  | some d' =>
    refine ⟨c, rfl, rfl, rfl, fun n => ?_, fun _ => rfl⟩
    cases h : Dict.get? c.funs n with
    | some _ => rfl
    | none =>
      by_cases h' : n = name
      · subst h'; rw [h] at hn; cases hn
      · simp [h']
  | none =>
    refine ⟨{ c with funs := Dict.set c.funs name (.deriv f wrt) }, ?_, rfl, rfl, fun n => ?_, fun ⟨d, h⟩ => by cases h⟩
    · simp [CtSym.addDerivative, hd, Dict.getItem, hv]
    · simp only [Dict.get?_set]
      by_cases h' : n = name
      · subst h'; simp [hn]
      · rw [if_neg (Ne.symm h'), if_neg h']
        cases Dict.get? c.funs n <;> rfl

/-- The Ito-Taylor model provides itself with the derivatives it needs: those the user has written are kept, the others are
added to the continuous-time model, and nothing else is changed in that. -/
theorem C96_ito (c : CtSym) (d : Option CtSym) (h : Discretisable c) :
    ∃ m m', initEuler (some c) d = .ok m ∧ initIto (some c) d = .ok m' ∧ m'.self = m.self ∧ m'.vars = m.vars ∧
      m'.ct.self = c.self ∧ m'.ct.vars = c.vars ∧ ∀ n, Dict.get? m'.ct.funs n = completed c n := by
  obtain ⟨x, hx⟩ := h.x
  obtain ⟨y, hy⟩ := h.y
  have hf := h.funs "f" (by simp)
  obtain ⟨c1, e1, s1, v1, f1, -⟩ := ensure_ok (name := "df_dt") hf h.t
  have hf1 : ∃ d, Dict.get? c1.funs "f" = some d := by
    obtain ⟨d, hd⟩ := hf
    exact ⟨d, by rw [f1, hd]⟩
  obtain ⟨c2, e2, s2, v2, f2, -⟩ := ensure_ok (name := "df_dx") hf1 (wrt := "x") (by rw [v1]; exact h.x)
  have hf2 : ∃ d, Dict.get? c2.funs "df_dx" = some d := by
    rw [f2]
    cases Dict.get? c1.funs "df_dx" with
    | some d => exact ⟨d, rfl⟩
    | none => exact ⟨_, rfl⟩
  obtain ⟨c3, e3, s3, v3, f3, -⟩ := ensure_ok (name := "d2f_dx2") hf2 (wrt := "x") (by rw [v2, v1]; exact h.x)
  refine ⟨_, ⟨_, _, c3⟩, initBase_ok d hx hy, ?_, rfl, rfl, by rw [s3, s2, s1], by rw [v3, v2, v1], fun n => ?_⟩
  · unfold initIto
    rw [initBase_ok d hx hy]
    simp only [py_bind_ok, e1, e2, e3]
    rfl
  · rw [f3, f2, f1]
    unfold completed
    cases Dict.get? c.funs n with
    | some _ => rfl
    | none =>
      by_cases h1 : n = "df_dt"
      · subst h1; rfl
      · by_cases h2 : n = "df_dx"
        · subst h2; rfl
        · by_cases h3 : n = "d2f_dx2"
          · subst h3; rfl
          · simp [h1, h2, h3, needed]

/-- All functions that the functions of the discretised models call exist after construction. -/
theorem C96_looks_up (c : CtSym) (d : Option CtSym) (h : Discretisable c) :
    (∃ m, initEuler (some c) d = .ok m ∧ looksUp false = ["h", "R", "f", "g"] ∧ ∀ n ∈ looksUp false, ∃ a, Dict.get? m.ct.funs n = some a) ∧
    ∃ m, initIto (some c) d = .ok m ∧ looksUp true = ["h", "R", "f", "g", "df_dt", "df_dx", "d2f_dx2"] ∧
      ∀ n ∈ looksUp true, ∃ a, Dict.get? m.ct.funs n = some a := by
  obtain ⟨m, m', h1, h2, -, -, -, -, h3⟩ := C96_ito c d h
  obtain ⟨m0, h4, h5, -⟩ := C96_variables c d h
  refine ⟨⟨m0, h4, rfl, fun n hn => ?_⟩, ⟨m', h2, rfl, fun n hn => ?_⟩⟩
  · rw [h5]; exact h.funs n (by simpa [looksUp] using hn)
  · rw [h3]
    unfold completed
    cases hg : Dict.get? c.funs n with
    | some a => exact ⟨a, rfl⟩
    | none =>
      simp only [looksUp, if_true, List.mem_append] at hn
      rcases hn with hn | hn
      · obtain ⟨a, ha⟩ := h.funs n hn
        rw [hg] at ha; cases ha
      · simp only [List.mem_cons, List.not_mem_nil, or_false] at hn
        rcases hn with rfl | rfl | rfl <;> exact ⟨_, rfl⟩

/-- Discretising a continuous-time model a second time changes nothing in it. -/
theorem C96_again (c : CtSym) (d d' : Option CtSym) (h : Discretisable c) :
    ∃ m, initIto (some c) d = .ok m ∧ Discretisable m.ct ∧ ∃ m', initIto (some m.ct) d' = .ok m' ∧ m'.ct = m.ct := by
  obtain ⟨m0, m, h1, h2, -, -, h3, h4, h5⟩ := C96_ito c d h
  have hd : Discretisable m.ct := by
    refine ⟨h4 ▸ h.x, h4 ▸ h.y, h4 ▸ h.t, fun n hn => ?_⟩
    obtain ⟨a, ha⟩ := h.funs n hn
    exact ⟨a, by rw [h5]; unfold completed; rw [ha]⟩
  refine ⟨m, h2, hd, ?_⟩
  obtain ⟨x, hx⟩ := hd.x
  obtain ⟨y, hy⟩ := hd.y
  have hall : ∀ n, needed n ≠ none → ∃ a, Dict.get? m.ct.funs n = some a := by
    intro n hn
    rw [h5]
    unfold completed
    cases Dict.get? c.funs n with
    | some a => exact ⟨a, rfl⟩
    | none => exact Option.ne_none_iff_exists'.1 hn
  have hc : ∀ n f w, needed n ≠ none → ensure m.ct f w n = .ok m.ct := by
    intro n f w hn
    obtain ⟨a, ha⟩ := hall n hn
    simp [ensure, Dict.contains, ha]
  refine ⟨⟨Dict.set m.ct.self "dt" (.scalar "dt"), [("k", .scalar "k"), ("x", x), ("y", y)], m.ct⟩, ?_, rfl⟩
  unfold initIto
  rw [initBase_ok d' hx hy]
  simp only [py_bind_ok]
  rw [hc "df_dt" _ _ (by simp [needed])]
  simp only [py_bind_ok]
  rw [hc "df_dx" _ _ (by simp [needed])]
  simp only [py_bind_ok]
  rw [hc "d2f_dx2" _ _ (by simp [needed])]
  rfl

/-- Without a model given, the one of the class is used; without either, and without states or outputs, the constructor
raises AttributeError; the Ito-Taylor scheme raises KeyError for a model without time that does not define `df_dt`. -/
theorem C96_rejected (c : CtSym) (d : Option CtSym) :
    initBase none (some c) = initBase (some c) d ∧ initBase none none = .error .attributeError ∧
    (Dict.get? c.vars "x" = none → initBase (some c) d = .error .attributeError) ∧
    (Dict.get? c.vars "y" = none → initBase (some c) d = .error .attributeError) ∧
    ((∃ v, Dict.get? c.vars "x" = some v) → (∃ v, Dict.get? c.vars "y" = some v) →
      (∃ a, Dict.get? c.funs "f" = some a) → Dict.get? c.vars "t" = none → Dict.get? c.funs "df_dt" = none →
      initIto (some c) d = .error .keyError) := by
  refine ⟨rfl, rfl, fun h => ?_, fun h => ?_, ?_⟩
  · simp only [initBase, CtSym.attr, py_pure, py_bind_ok, h]; rfl
  · simp only [initBase, CtSym.attr, py_pure, py_bind_ok, h]
    cases Dict.get? c.vars "x" <;> rfl
  · rintro ⟨x, hx⟩ ⟨y, hy⟩ ⟨a, ha⟩ ht hn
    unfold initIto
    rw [initBase_ok d hx hy]
    simp [ensure, Dict.contains, hn, CtSym.addDerivative, ha, Dict.getItem, ht]

/-- The shape of a matrix. -/
def shapeOf {a b : Nat} (_ : Matrix (Fin a) (Fin b) ℝ) : Nat × Nat := (a, b)

/-- The numbers assigned in the generated class are those of the states, of the outputs and of the columns of the noise gain
of the discretised model, which for the Ito-Taylor scheme are twice as many as the noises of the continuous-time model; the
covariance of the measurement is that of the continuous-time model. -/
theorem C96_assignments {nx nw ny : Nat} (c : CtSym) (d : Option CtSym) (lx ly : List String) (N : CtModel nx nw ny) (dt k : ℝ)
    (z : Fin nx → ℝ) (hx : Dict.get? c.vars "x" = some (.vec lx)) (hy : Dict.get? c.vars "y" = some (.vec ly)) :
    ∃ m, initBase (some c) d = .ok m ∧
      assignments m (shapeOf ((GenSDE.euler N dt).g k z)) = .ok [("nx", lx.length), ("ny", ly.length), ("nw", nw)] ∧
      assignments m (shapeOf ((GenSDE.ito N dt).g k z)) = .ok [("nx", lx.length), ("ny", ly.length), ("nw", 2 * nw)] ∧
      (GenSDE.euler N dt).R = R N ∧ (GenSDE.ito N dt).R = R N := by
  refine ⟨_, initBase_ok d hx hy, ?_, ?_, rfl, rfl⟩
  · simp only [assignments, Dict.getItem, hy, Dict.get?_cons]
    rfl
  · simp only [assignments, Dict.getItem, hy, Dict.get?_cons]
    rw [two_mul]
    rfl

/-- The Duffing oscillator of examples/duffing.py:24-68. -/
def duffingSym : CtSym where
  self := ["gamma", "omega", "alpha", "beta", "delta", "g2", "X_meas_std"].map fun n => (n, .scalar n)
  vars := [("x", .vec ["x", "v"]), ("y", .vec ["X_meas"]), ("t", .scalar "t")]
  funs := ["f", "g", "h", "R"].map fun n => (n, .user)

theorem duffing_discretisable : Discretisable duffingSym :=
  ⟨⟨_, rfl⟩, ⟨_, rfl⟩, ⟨_, rfl⟩, by intro n hn; simp at hn; rcases hn with rfl | rfl | rfl | rfl <;> exact ⟨_, rfl⟩⟩

/-- The derivatives are added in the order in which they are needed. -/
example : ∃ m, initIto none (some duffingSym) = .ok m ∧
    m.ct.funs.drop 4 = [("df_dt", .deriv "f" "t"), ("df_dx", .deriv "f" "x"), ("d2f_dx2", .deriv "df_dx" "x")] ∧
    m.self.map Prod.fst = ["gamma", "omega", "alpha", "beta", "delta", "g2", "X_meas_std", "dt"] :=
  ⟨_, rfl, by decide, by decide⟩

/-- A Jacobian written by the user is kept. -/
example : ∃ m, initIto (some { duffingSym with funs := duffingSym.funs ++ [("df_dx", .user)] }) none = .ok m ∧
    Dict.get? m.ct.funs "df_dx" = some .user ∧ Dict.get? m.ct.funs "d2f_dx2" = some (.deriv "df_dx" "x") :=
  ⟨_, rfl, by decide, by decide⟩

end Ceacoest.SymSDE
