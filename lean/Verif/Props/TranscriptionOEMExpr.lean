import Verif.Props.TranscriptionOEM
import Verif.Props.TranscriptionOCExpr

/-! # C70 for output error models written in the language of expressions -/

namespace Ceacoest
open Spec RK

/-- The methods return expressions without reciprocals of zero and logarithms of other than positive numbers, for any such arguments. -/
structure OEMTotal (U : OEMUser SExpr) : Prop where
  f : ∀ x u p : List SExpr, (∀ a ∈ x, a.Total) → (∀ a ∈ u, a.Total) → (∀ a ∈ p, a.Total) → ∀ a ∈ U.f x u p, a.Total
  L : ∀ y x u p : List SExpr, (∀ a ∈ y, a.Total) → (∀ a ∈ x, a.Total) → (∀ a ∈ u, a.Total) → (∀ a ∈ p, a.Total) → (U.L y x u p).Total

/-- **C70** for output error models written as expressions that are always defined: the derivatives are right everywhere, without
further assumptions. -/
theorem C70_oem_expr (U : OEMUser SExpr) (hT : OEMTotal U) (F : OEMFunctions) {xn un pn yn : List String} {N : Nat}
    (hU : OEMDenotes SExpr.ev U F xn.length un.length pn.length yn.length) (hN : (N : Int) + 1 = U.order) (hN1 : 1 ≤ N)
    {vars : Dict String SymVar} (hv : ColVars vars xn un pn) (hy : Dict.get? vars "y" = some (.vec yn)) {decision : List String}
    (hd : DecisionOK vars ["x", "p", "xp"] ["y", "u", "up", "piece_len"] decision) {iter : String → List String} (hi : OrdersOK iter oemWrt) :
    ∃ c, symoemInit SExpr.arith U.order (oemMethods SExpr.arith U) iter vars decision = .ok c ∧ lglCollocation U.order = .ok c.col ∧
      ∃ m, symoemGen (exprCode (shapeOf c.vars)) U.order c = .ok m ∧ m.collocationOrder = U.order ∧ m.nx = xn.length ∧ m.nu = un.length ∧
        m.np = pn.length ∧ m.ny = yn.length ∧
      ∀ (t : NDArray ℝ) (y : MaskedArray) (u : UArg) (ua : NDArray ℝ) (P : Nat), OEMInput m t y P → InputsOK m t u ua →
      ∃ q rows, oemProblem ColProblem.initVars m t y u = .ok q ∧ MeasuredRows y.mask (P + 1) yn.length rows ∧
      q.prob.ndec = (P * N + 1) * xn.length + pn.length ∧
      ∀ d : List ℝ, d.length = q.prob.ndec →
        q.prob.obj d = .ok (logLikelihood F rows y.arr.data ua.data N xn.length un.length yn.length
          (rowAt d ((P * N + 1) * xn.length) pn.length 0) d) ∧
        q.prob.constr d = .ok (oemConstraints F c.col.J (diff t.data) ua.data P N xn.length un.length
          (rowAt d ((P * N + 1) * xn.length) pn.length 0) d) ∧
        DerivativesRight q.prob d := by
  obtain ⟨c, h1, h2, ⟨out, hE, hlen, hfn⟩, h3⟩ := oem_nlp arith_ok U F hU hN hN1 hv hy hd hi
  obtain ⟨m, s, g1, g2, g3, g4, g5, g6, h4⟩ := h3 (exprCode (shapeOf c.vars)) fun _ g _ => C66_expr_code _ g
  refine ⟨c, h1, h2, m, g1, g2, g3, g4, g5, g6, fun t y u ua P hin hu => ?_⟩
  obtain ⟨q, rows, q1, q2, q3, qo, qc, -, q4⟩ := h4 t y u ua P hin hu
  refine ⟨q, rows, q1, q2, q3, fun d hl => ?_⟩
  obtain ⟨r1, r2, r3⟩ := q4 d hl
  refine ⟨r1, r2, r3 ?_⟩
  have key : ∀ n ∈ ["e", "L"], ∀ var x, SmoothAt (SExpr.sym2num (shapeOf c.vars)) SExpr.ev (shapeOf c.vars)
      ((c.side SExpr.arith SExpr.ev s).fn n) var x := by
    intro n hn var x
    have hsz : ∀ f : SymFn SExpr, Dict.get? c.model.funcs n = some f → f.out.length = f.outShape.prod → f.args.Nodup →
        (∀ a ∈ f.out, a.Total) → SmoothAt (SExpr.sym2num (shapeOf c.vars)) SExpr.ev (shapeOf c.vars)
          ((c.side SExpr.arith SExpr.ev s).fn n) var x := by
      intro f hf a1 a2 a3
      have : (c.side SExpr.arith SExpr.ev s).fn n = f := by change (Dict.get? c.model.funcs n).getD _ = _; rw [hf]; rfl
      rw [this]
      exact C66_expr_smooth _ f a1 a2 var x fun e he => a3 e he _
    have hfn' := hfn n hn
    simp only [List.mem_cons, List.not_mem_nil, or_false] at hn
    rcases hn with rfl | rfl
    · exact hsz _ hfn' (by simp [hlen]) (show ["xp", "up", "p", "piece_len"].Nodup by decide) (symcolE_total hT.f hE)
    · refine hsz _ hfn' rfl (show ["y", "x", "u", "p"].Nodup by decide) ?_
      intro a ha
      rw [List.mem_singleton.1 ha]
      exact hT.L _ _ _ _ (total_row _ _ _) (total_row _ _ _) (total_row _ _ _) (total_row _ _ _)
  exact fun vs _ => ⟨fun o ho e _ => key _ (qo o ho) _ _, fun o ho e _ => key _ (qc o ho) _ _⟩

/-! ### Expressions with reciprocals and logarithms -/

/-- On their domains the methods return expressions without reciprocals of zero and logarithms of other than positive numbers. -/
structure OEMDefinedOn (U : OEMUser SExpr) (Df : List ℝ → List ℝ → List ℝ → Prop) (DL : List ℝ → List ℝ → List ℝ → List ℝ → Prop) : Prop where
  f : ∀ x u p env, ArgsIn Df x u p env → ∀ a ∈ U.f x u p, a.Defined env
  L : ∀ y x u p env, (∀ a ∈ y, a.Defined env) → ArgsIn (DL (y.map (SExpr.ev · env))) x u p env → (U.L y x u p).Defined env

/-- **C70** for output error models written as expressions: the derivatives are right at every decision vector for which `f` is defined at
all points of the grid and `L` at all rows with measurements. -/
theorem C70_oem_expr_at (U : OEMUser SExpr) {Df : List ℝ → List ℝ → List ℝ → Prop} {DL : List ℝ → List ℝ → List ℝ → List ℝ → Prop}
    (hT : OEMDefinedOn U Df DL) (F : OEMFunctions) {xn un pn yn : List String} {N : Nat}
    (hU : OEMDenotes SExpr.ev U F xn.length un.length pn.length yn.length) (hN : (N : Int) + 1 = U.order) (hN1 : 1 ≤ N)
    {vars : Dict String SymVar} (hv : ColVars vars xn un pn) (hy : Dict.get? vars "y" = some (.vec yn)) {decision : List String}
    (hd : DecisionOK vars ["x", "p", "xp"] ["y", "u", "up", "piece_len"] decision) {iter : String → List String} (hi : OrdersOK iter oemWrt) :
    ∃ c, symoemInit SExpr.arith U.order (oemMethods SExpr.arith U) iter vars decision = .ok c ∧ lglCollocation U.order = .ok c.col ∧
      ∃ m, symoemGen (exprCode (shapeOf c.vars)) U.order c = .ok m ∧ m.collocationOrder = U.order ∧ m.nx = xn.length ∧ m.nu = un.length ∧
        m.np = pn.length ∧ m.ny = yn.length ∧
      ∀ (t : NDArray ℝ) (y : MaskedArray) (u : UArg) (ua : NDArray ℝ) (P : Nat), OEMInput m t y P → InputsOK m t u ua →
      ∃ q rows, oemProblem ColProblem.initVars m t y u = .ok q ∧ MeasuredRows y.mask (P + 1) yn.length rows ∧
      q.prob.ndec = (P * N + 1) * xn.length + pn.length ∧
      ∀ d p : List ℝ, d.length = q.prob.ndec → p = rowAt d ((P * N + 1) * xn.length) pn.length 0 →
        q.prob.obj d = .ok (logLikelihood F rows y.arr.data ua.data N xn.length un.length yn.length p d) ∧
        q.prob.constr d = .ok (oemConstraints F c.col.J (diff t.data) ua.data P N xn.length un.length p d) ∧
        ((∀ r ≤ P * N, Df (rowAt d 0 xn.length r) (rowAt ua.data 0 un.length r) p) →
          (∀ k ∈ rows, DL (rowAt y.arr.data 0 yn.length k) (rowAt d 0 xn.length (k * N)) (rowAt ua.data 0 un.length (k * N)) p) →
          DerivativesRight q.prob d) := by
  obtain ⟨c, h1, h2, ⟨out, hE, hlen, hfn⟩, h3⟩ := oem_nlp arith_ok U F hU hN hN1 hv hy hd hi
  obtain ⟨m, s, g1, g2, g3, g4, g5, g6, h4⟩ := h3 (exprCode (shapeOf c.vars)) fun _ g _ => C66_expr_code _ g
  refine ⟨c, h1, h2, m, g1, g2, g3, g4, g5, g6, fun t y u ua P hin hu => ?_⟩
  obtain ⟨q, rows, q1, q2, q3, -, -, qs, q4⟩ := h4 t y u ua P hin hu
  refine ⟨q, rows, q1, q2, q3, fun d p hl hp => ?_⟩
  subst hp
  obtain ⟨r1, r2, r3⟩ := q4 d hl
  refine ⟨r1, r2, fun hDf hDL => r3 fun vs hvs => ?_⟩
  have hn : c.col.n = N + 1 := by
    obtain ⟨col, N', e1, e2, e3, -⟩ := lgl_lengths (n := U.order) (by omega)
    obtain rfl : c.col = col := Except.ok.inj (h2.symm.trans e1)
    omega
  have hpl : (rowAt d ((P * N + 1) * xn.length) pn.length 0).length = pn.length := by simp [rowAt]
  have key : ∀ n (x : Args), OEMPoint rows y.arr.data ua.data P N xn.length un.length yn.length (rowAt d ((P * N + 1) * xn.length) pn.length 0) d n
        (argEnv ((c.side SExpr.arith SExpr.ev s).fn n).args x) → ∀ var,
      SmoothAt (SExpr.sym2num (shapeOf c.vars)) SExpr.ev (shapeOf c.vars) ((c.side SExpr.arith SExpr.ev s).fn n) var x := by
    intro n x hpt var
    have hsz : ∀ f : SymFn SExpr, Dict.get? c.model.funcs n = some f → f.out.length = f.outShape.prod → f.args.Nodup →
        (∀ a ∈ f.out, a.Defined (argEnv ((c.side SExpr.arith SExpr.ev s).fn n).args x)) → SmoothAt (SExpr.sym2num (shapeOf c.vars)) SExpr.ev (shapeOf c.vars)
          ((c.side SExpr.arith SExpr.ev s).fn n) var x := by
      intro f hf a1 a2 a3
      have : (c.side SExpr.arith SExpr.ev s).fn n = f := by change (Dict.get? c.model.funcs n).getD _ = _; rw [hf]; rfl
      rw [this] at a3 ⊢
      exact C66_expr_smooth _ f a1 a2 var x fun e he => a3 e he
    set env := argEnv ((c.side SExpr.arith SExpr.ev s).fn n).args x with henv
    rw [OEMPoint, hpl] at hpt
    rcases hpt with ⟨rfl, i, hi, rx, ru, rp⟩ | ⟨rfl, k, hk, ry, rx, ru, rp⟩
    · refine hsz _ (hfn _ (by simp)) (by simp [hlen]) (show ["xp", "up", "p", "piece_len"].Nodup by decide)
        (symcolE_defined hT.f hE fun l hl => ?_)
      rw [hn] at hl
      rw [rx l hl, ru l hl, rp]
      refine hDf _ ?_
      have := Nat.mul_le_mul_right N (show i + 1 ≤ P by omega)
      rw [Nat.add_mul, Nat.one_mul] at this
      omega
    · refine hsz _ (hfn _ (by simp)) rfl (show ["y", "x", "u", "p"].Nodup by decide) ?_
      intro a ha
      rw [List.mem_singleton.1 ha]
      refine hT.L _ _ _ _ _ (defined_row _ _ _) (argsIn_rows ?_)
      rw [ev_row arith_ok, ry, rx, ru, rp]
      exact hDL k hk
  obtain ⟨s1, s2⟩ := qs d hl vs hvs
  exact ⟨fun o ho e he => key _ _ (s1 o ho e he) _, fun o ho e he => key _ _ (s2 o ho e he) _⟩

/-! ### An example: the friction of a pendulum from noisy angles -/

namespace PendulumId
open SExpr

/-- The parameters are the friction and the logarithm of the precision of the measurements. -/
noncomputable def user : OEMUser SExpr where
  order := 3
  f x u p :=
    [x.getD 1 (const 0), add (mul (const (-1)) (sin (x.getD 0 (const 0)))) (add (u.getD 0 (const 0))
      (mul (const (-1)) (mul (p.getD 0 (const 0)) (x.getD 1 (const 0)))))]
  L y x _ p :=
    let r := add (y.getD 0 (const 0)) (mul (const (-1)) (x.getD 0 (const 0)))
    add (mul (const (1 / 2)) (p.getD 1 (const 0))) (mul (const (-(1 / 2))) (mul (exp (p.getD 1 (const 0))) (mul r r)))

/-- The same on numbers. -/
noncomputable def functions : OEMFunctions where
  f x u p := [x.getD 1 0, -Real.sin (x.getD 0 0) + (u.getD 0 0 - p.getD 0 0 * x.getD 1 0)]
  L y x _ p := p.getD 1 0 / 2 - Real.exp (p.getD 1 0) * (y.getD 0 0 - x.getD 0 0) ^ 2 / 2

theorem denotes : OEMDenotes ev user functions 2 1 2 1 where
  lenf := fun _ _ _ _ _ _ => rfl
  f := fun x u p env _ _ _ => by
    simp only [user, functions, List.map_cons, List.map_nil, ev, Pendulum.getD_map_ev]
    congr 2; ring
  L := fun y x u p env _ _ _ _ => by simp only [user, functions, ev, Pendulum.getD_map_ev]; ring

theorem total : OEMTotal user where
  f := fun x u p hx hu hp a ha => by
    simp only [user, List.mem_cons, List.not_mem_nil, or_false] at ha
    rcases ha with rfl | rfl
    · exact total_getD hx 1
    · exact fun env => ⟨⟨trivial, total_getD hx 0 env⟩, total_getD hu 0 env, trivial, total_getD hp 0 env, total_getD hx 1 env⟩
  L := fun y x u p hy hx _ hp env => by
    have hr := And.intro (total_getD hy 0 env) (And.intro (trivial : (const (-1)).Defined env) (total_getD hx 0 env))
    exact ⟨⟨trivial, total_getD hp 1 env⟩, trivial, total_getD hp 1 env, hr, hr⟩

def vars : Dict String SymVar := [("x", .vec ["angle", "speed"]), ("u", .vec ["torque"]), ("p", .vec ["friction", "precision"]),
  ("y", .vec ["angle_meas"])]

theorem vars_ok : ColVars vars ["angle", "speed"] ["torque"] ["friction", "precision"] where
  keys := by decide
  x := rfl
  u := Or.inl rfl
  p := Or.inl rfl
  pieceLen := fun v h => by cases h

def iter (n : String) : List String := ((oemWrt.find? fun fa => fa.1 = n).map fun fa => fa.2.reverse).getD []

theorem iter_ok : OrdersOK iter oemWrt := by unfold OrdersOK; decide

def t : NDArray ℝ := ⟨[3], [0, 1, 3]⟩
/-- The second of three measurements is missing. -/
def y : MaskedArray := ⟨⟨[3, 1], [1, 2, 3]⟩, [false, true, false]⟩
def ua : NDArray ℝ := ⟨[5, 1], [7, 8, 9, 8, 7]⟩

theorem input {m : OEMModel} (h1 : m.collocationOrder = 3) (h2 : m.ny = 1) : OEMInput m t y 2 where
  order := by rw [h1]; decide
  pieces := by omega
  tshape := rfl
  twf := rfl
  tinc := by norm_num [t]
  yshape := by rw [h2]; rfl
  ywf := rfl
  ymask := by rw [h2]; rfl

theorem inputs {m : OEMModel} (h1 : m.collocationOrder = 3) (h2 : m.ny = 1) (h3 : m.nu = 1) :
    InputsOK m t (.callable fun _ => .ok (.array ua)) ua := by
  intro col tc hcol htc
  have hin := input h1 h2
  obtain ⟨col', tc', g1, g2, g3, -, g5, g6, -⟩ := create_eq m.toColModel hin.order t 2 rfl rfl hin.tinc
  have e1 : lglCollocation m.collocationOrder = .ok col' := g1
  rw [hcol] at e1
  cases e1
  rw [htc] at g5
  cases g5
  have hn : col.ninterv = 2 := by
    have : (col.n : Int) = 3 := by rw [← h1]; exact g2
    omega
  refine ⟨rfl, ?_, rfl⟩
  rw [g6, hn, h3]
  rfl

/-- All hypotheses of C70 hold: two pieces, twelve decision variables, exact derivatives at every decision vector. -/
example : ∃ c, symoemInit SExpr.arith 3 (oemMethods SExpr.arith user) iter vars [] = .ok c ∧
    ∃ m, symoemGen (exprCode (shapeOf c.vars)) 3 c = .ok m ∧
    ∃ q, oemProblem ColProblem.initVars m t y (.callable fun _ => .ok (.array ua)) = .ok q ∧ q.prob.ndec = 12 ∧
      ∀ d : List ℝ, d.length = 12 → DerivativesRight q.prob d := by
  obtain ⟨c, h1, -, m, h2, m1, -, m3, -, m5, h3⟩ := C70_oem_expr user total functions (xn := ["angle", "speed"]) (un := ["torque"])
    (pn := ["friction", "precision"]) (yn := ["angle_meas"]) (N := 2) denotes rfl (by decide) vars_ok rfl (decision := [])
    (by unfold DecisionOK; decide) iter_ok
  obtain ⟨q, rows, q1, -, q2, q3⟩ := h3 t y _ ua 2 (input m1 m5) (inputs m1 m5 m3)
  exact ⟨c, h1, m, h2, q, q1, q2, fun d hd => (q3 d (by rw [q2]; exact hd)).2.2⟩

end PendulumId
end Ceacoest
