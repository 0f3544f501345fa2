import Verif.Props.TranscriptionOC
import Verif.Lemmas.SymArith
import Verif.Lemmas.KalmanLoops

/-! # C70 for optimal control models written in the language of expressions -/

namespace Ceacoest
open Spec RK

/-- The methods return expressions without reciprocals of zero and logarithms of other than positive numbers, for any such arguments. -/
structure OCTotal (U : OCUser SExpr) : Prop where
  f : ∀ x u p : List SExpr, (∀ a ∈ x, a.Total) → (∀ a ∈ u, a.Total) → (∀ a ∈ p, a.Total) → ∀ a ∈ U.f x u p, a.Total
  L : ∀ x u p : List SExpr, (∀ a ∈ x, a.Total) → (∀ a ∈ u, a.Total) → (∀ a ∈ p, a.Total) → (U.L x u p).Total
  M : ∀ x p : List SExpr, (∀ a ∈ x, a.Total) → (∀ a ∈ p, a.Total) → (U.M x p).Total
  g : ∀ x u p : List SExpr, (∀ a ∈ x, a.Total) → (∀ a ∈ u, a.Total) → (∀ a ∈ p, a.Total) → ∀ a ∈ U.g x u p, a.Total
  h : ∀ x p : List SExpr, (∀ a ∈ x, a.Total) → (∀ a ∈ p, a.Total) → ∀ a ∈ U.h x p, a.Total

theorem symcolE_total {col : Collocation ℝ} {f : List SExpr → List SExpr → List SExpr → List SExpr} {nx nu np : Nat} {e : SymFn SExpr}
    (hf : ∀ x u p : List SExpr, (∀ a ∈ x, a.Total) → (∀ a ∈ u, a.Total) → (∀ a ∈ p, a.Total) → ∀ a ∈ f x u p, a.Total)
    (he : symcolE SExpr.arith col f nx nu np = .ok e) : ∀ a ∈ e.out, a.Total := by
  unfold symcolE at he
  obtain ⟨fp, h1, h2⟩ := py_bind_eq_ok he
  obtain rfl := Except.ok.inj h2
  have hfp : ∀ r ∈ fp, ∀ a ∈ r, a.Total := by
    intro r hr
    obtain ⟨i, -, hi⟩ := mapM_mem h1 hr
    unfold checkLen at hi
    split at hi
    · obtain rfl := Except.ok.inj hi
      exact hf _ _ _ (total_row _ _ _) (total_row _ _ _) (total_row _ _ _)
    · cases hi
  intro a ha
  obtain ⟨k, -, ha⟩ := List.mem_flatMap.1 ha
  obtain ⟨j, -, rfl⟩ := List.mem_map.1 ha
  refine total_sub (total_sub (total_sym _ _) (total_sym _ _)) (total_mul (total_dotNum fun b hb => ?_) (total_sym _ _))
  obtain ⟨r, hr, rfl⟩ := List.mem_map.1 hb
  exact total_getD (hfp r hr) j

/-- **C70** for optimal control models written as expressions that are always defined: the derivatives are right everywhere, without
further assumptions. -/
theorem C70_oc_expr (U : OCUser SExpr) (hT : OCTotal U) (F : OCFunctions) {xn un pn : List String} {ng nh N : Nat}
    (hU : OCDenotes SExpr.ev U F xn.length un.length pn.length ng nh) (hN : (N : Int) + 1 = U.order) (hN1 : 1 ≤ N) {vars : Dict String SymVar}
    (hv : ColVars vars xn un pn) {decision : List String}
    (hd : DecisionOK vars ["x", "u", "p", "xp", "up", "xe"] ["piece_len"] decision) {iter : String → List String} (hi : OrdersOK iter ocWrt) :
    ∃ c, symocInit SExpr.arith U iter vars decision = .ok c ∧ lglCollocation U.order = .ok c.col ∧
      ∃ m, symocGen (exprCode (shapeOf c.vars)) U c = .ok m ∧
      ∀ (t : NDArray ℝ) (P : Nat), 1 ≤ P → t.shape = [P + 1] → t.WF → t.data.Pairwise (· < ·) →
      ∃ q, ocProblem m t = .ok q ∧ q.prob.ndec = (P * N + 1) * (xn.length + un.length) + pn.length ∧
      ∀ d : List ℝ, d.length = q.prob.ndec →
        q.prob.obj d = .ok (ocCost F c.col.K (diff t.data) P N xn.length un.length pn.length d) ∧
        q.prob.constr d = .ok (ocConstraints F c.col.J (diff t.data) P N xn.length un.length pn.length d) ∧
        DerivativesRight q.prob d := by
  obtain ⟨c, h1, h2, ⟨out, hE, hlen, hfn⟩, h3⟩ := oc_nlp arith_ok U F hU hN hN1 hv hd hi
  obtain ⟨m, s, g1, -, -, -, -, -, h4⟩ := h3 (exprCode (shapeOf c.vars)) fun _ g _ => C66_expr_code _ g
  refine ⟨c, h1, h2, m, g1, fun t P hP hs hw hinc => ?_⟩
  obtain ⟨q, q1, q2, qo, qc, -, q3⟩ := h4 t P hP hs hw hinc
  refine ⟨q, q1, q2, fun d hl => ?_⟩
  obtain ⟨r1, r2, r3⟩ := q3 d hl
  refine ⟨r1, r2, r3 ?_⟩
  have key : ∀ n ∈ ["e", "IL", "M", "g", "h"], ∀ var x, SmoothAt (SExpr.sym2num (shapeOf c.vars)) SExpr.ev (shapeOf c.vars)
      ((c.side SExpr.arith SExpr.ev s).fn n) var x := by
    intro n hn var x
    have hsz : ∀ f : SymFn SExpr, Dict.get? c.model.funcs n = some f → f.out.length = f.outShape.prod → f.args.Nodup →
        (∀ a ∈ f.out, a.Total) → SmoothAt (SExpr.sym2num (shapeOf c.vars)) SExpr.ev (shapeOf c.vars)
          ((c.side SExpr.arith SExpr.ev s).fn n) var x := by
      intro f hf a1 a2 a3
      have : (c.side SExpr.arith SExpr.ev s).fn n = f := by change (Dict.get? c.model.funcs n).getD _ = _; rw [hf]; rfl
      rw [this]
      exact C66_expr_smooth _ f a1 a2 var x fun e he => a3 e he _
    have hfn' := hfn n hn
    simp only [List.mem_cons, List.not_mem_nil, or_false] at hn
    rcases hn with rfl | rfl | rfl | rfl | rfl
    · refine hsz _ hfn' (by simp [hlen]) (show ["xp", "up", "p", "piece_len"].Nodup by decide) (symcolE_total hT.f hE)
    · refine hsz _ hfn' rfl (show ["xp", "up", "p", "piece_len"].Nodup by decide) ?_
      intro a ha
      rw [List.mem_singleton.1 ha]
      refine total_mul (total_dot (fun b hb => ?_) fun b hb => ?_) (total_sym _ _)
      · obtain ⟨i, -, rfl⟩ := List.mem_map.1 hb
        exact hT.L _ _ _ (total_row _ _ _) (total_row _ _ _) (total_row _ _ _)
      · obtain ⟨i, -, rfl⟩ := List.mem_map.1 hb
        exact total_num _
    · refine hsz _ hfn' rfl (show ["xe", "p"].Nodup by decide) ?_
      intro a ha
      rw [List.mem_singleton.1 ha]
      exact hT.M _ _ (total_row _ _ _) (total_row _ _ _)
    · exact hsz _ hfn' (vec_size _ _) (show ["x", "u", "p"].Nodup by decide) (hT.g _ _ _ (total_row _ _ _) (total_row _ _ _) (total_row _ _ _))
    · exact hsz _ hfn' (vec_size _ _) (show ["xe", "p"].Nodup by decide) (hT.h _ _ (total_row _ _ _) (total_row _ _ _))
  exact fun vs _ => ⟨fun o ho e _ => key _ (qo o ho) _ _, fun o ho e _ => key _ (qc o ho) _ _⟩

/-! ### Expressions with reciprocals and logarithms -/

/-- The arguments for which the functions of an optimal control problem are defined. -/
structure OCDomain where
  f : List ℝ → List ℝ → List ℝ → Prop
  L : List ℝ → List ℝ → List ℝ → Prop
  M : List ℝ → List ℝ → Prop
  g : List ℝ → List ℝ → List ℝ → Prop
  h : List ℝ → List ℝ → Prop

/-- The values of the arguments are in the domain. -/
def ArgsIn (D : List ℝ → List ℝ → List ℝ → Prop) (x u p : List SExpr) (env : Env) : Prop :=
  (∀ a ∈ x ++ u ++ p, a.Defined env) ∧ D (x.map (SExpr.ev · env)) (u.map (SExpr.ev · env)) (p.map (SExpr.ev · env))

/-- On their domain the methods return expressions without reciprocals of zero and logarithms of other than positive numbers. -/
structure OCDefinedOn (U : OCUser SExpr) (D : OCDomain) : Prop where
  f : ∀ x u p env, ArgsIn D.f x u p env → ∀ a ∈ U.f x u p, a.Defined env
  L : ∀ x u p env, ArgsIn D.L x u p env → (U.L x u p).Defined env
  M : ∀ xe p env, ArgsIn (fun xe _ p => D.M xe p) xe [] p env → (U.M xe p).Defined env
  g : ∀ x u p env, ArgsIn D.g x u p env → ∀ a ∈ U.g x u p, a.Defined env
  h : ∀ xe p env, ArgsIn (fun xe _ p => D.h xe p) xe [] p env → ∀ a ∈ U.h xe p, a.Defined env

/-- All functions of an optimal control problem are defined where the problem evaluates them. -/
structure OCInDomain (D : OCDomain) (P N nx nu np : Nat) (d : List ℝ) : Prop where
  f : ∀ r ≤ P * N, D.f (ocX nx d r) (ocU P N nx nu d r) (ocP P N nx nu np d)
  L : ∀ r ≤ P * N, D.L (ocX nx d r) (ocU P N nx nu d r) (ocP P N nx nu np d)
  M : D.M (ocX nx d 0 ++ ocX nx d (P * N)) (ocP P N nx nu np d)
  g : ∀ r ≤ P * N, D.g (ocX nx d r) (ocU P N nx nu d r) (ocP P N nx nu np d)
  h : D.h (ocX nx d 0 ++ ocX nx d (P * N)) (ocP P N nx nu np d)

theorem argsIn_rows {D : List ℝ → List ℝ → List ℝ → Prop} {env : Env} {n1 n2 n3 : String} {c1 c2 c3 i1 i2 i3 : Nat}
    (h : D (envRow env n1 c1 i1) (envRow env n2 c2 i2) (envRow env n3 c3 i3)) :
    ArgsIn D (SExpr.arith.row n1 c1 i1) (SExpr.arith.row n2 c2 i2) (SExpr.arith.row n3 c3 i3) env := by
  refine ⟨fun a ha => ?_, by rw [ev_row arith_ok, ev_row arith_ok, ev_row arith_ok]; exact h⟩
  simp only [List.mem_append] at ha
  rcases ha with (ha | ha) | ha
  all_goals exact defined_row _ _ _ a ha

theorem argsIn_ends {D : List ℝ → List ℝ → Prop} {env : Env} {n1 n3 : String} {c1 c3 i1 i3 : Nat}
    (h : D (envRow env n1 c1 i1) (envRow env n3 c3 i3)) :
    ArgsIn (fun x _ p => D x p) (SExpr.arith.row n1 c1 i1) [] (SExpr.arith.row n3 c3 i3) env :=
  ⟨fun a ha => (argsIn_rows (D := fun x _ p => D x p) (n2 := "") (c2 := 0) (i2 := 0) h).1 a ha,
    (argsIn_rows (D := fun x _ p => D x p) (n2 := "") (c2 := 0) (i2 := 0) h).2⟩

theorem symcolE_defined {col : Collocation ℝ} {f : List SExpr → List SExpr → List SExpr → List SExpr} {nx nu np : Nat} {e : SymFn SExpr}
    {D : List ℝ → List ℝ → List ℝ → Prop} {env : Env} (hf : ∀ x u p env, ArgsIn D x u p env → ∀ a ∈ f x u p, a.Defined env)
    (he : symcolE SExpr.arith col f nx nu np = .ok e) (hD : ∀ l < col.n, D (envRow env "xp" nx l) (envRow env "up" nu l) (envRow env "p" np 0)) :
    ∀ a ∈ e.out, a.Defined env := by
  unfold symcolE at he
  obtain ⟨fp, h1, h2⟩ := py_bind_eq_ok he
  obtain rfl := Except.ok.inj h2
  have hfp : ∀ r ∈ fp, ∀ a ∈ r, a.Defined env := by
    intro r hr
    obtain ⟨i, hin, hi⟩ := mapM_mem h1 hr
    unfold checkLen at hi
    split at hi
    · obtain rfl := Except.ok.inj hi
      exact hf _ _ _ _ (argsIn_rows (hD i (List.mem_range.1 hin)))
    · cases hi
  intro a ha
  obtain ⟨k, -, ha⟩ := List.mem_flatMap.1 ha
  obtain ⟨j, -, rfl⟩ := List.mem_map.1 ha
  refine ⟨⟨trivial, trivial, trivial⟩, trivial, defined_dotNum fun b hb => ?_, trivial⟩
  obtain ⟨r, hr, rfl⟩ := List.mem_map.1 hb
  exact defined_getD (hfp r hr) j

/-- **C70** for optimal control models written as expressions: the derivatives are right at every decision vector for which the
functions are defined at all points of the grid. -/
theorem C70_oc_expr_at (U : OCUser SExpr) (D : OCDomain) (hT : OCDefinedOn U D) (F : OCFunctions) {xn un pn : List String} {ng nh N : Nat}
    (hU : OCDenotes SExpr.ev U F xn.length un.length pn.length ng nh) (hN : (N : Int) + 1 = U.order) (hN1 : 1 ≤ N) {vars : Dict String SymVar}
    (hv : ColVars vars xn un pn) {decision : List String}
    (hd : DecisionOK vars ["x", "u", "p", "xp", "up", "xe"] ["piece_len"] decision) {iter : String → List String} (hi : OrdersOK iter ocWrt) :
    ∃ c, symocInit SExpr.arith U iter vars decision = .ok c ∧ lglCollocation U.order = .ok c.col ∧
      ∃ m, symocGen (exprCode (shapeOf c.vars)) U c = .ok m ∧
      ∀ (t : NDArray ℝ) (P : Nat), 1 ≤ P → t.shape = [P + 1] → t.WF → t.data.Pairwise (· < ·) →
      ∃ q, ocProblem m t = .ok q ∧ q.prob.ndec = (P * N + 1) * (xn.length + un.length) + pn.length ∧
      ∀ d : List ℝ, d.length = q.prob.ndec →
        q.prob.obj d = .ok (ocCost F c.col.K (diff t.data) P N xn.length un.length pn.length d) ∧
        q.prob.constr d = .ok (ocConstraints F c.col.J (diff t.data) P N xn.length un.length pn.length d) ∧
        (OCInDomain D P N xn.length un.length pn.length d → DerivativesRight q.prob d) := by
  obtain ⟨c, h1, h2, ⟨out, hE, hlen, hfn⟩, h3⟩ := oc_nlp arith_ok U F hU hN hN1 hv hd hi
  obtain ⟨m, s, g1, -, -, -, -, -, h4⟩ := h3 (exprCode (shapeOf c.vars)) fun _ g _ => C66_expr_code _ g
  refine ⟨c, h1, h2, m, g1, fun t P hP hs hw hinc => ?_⟩
  obtain ⟨q, q1, q2, -, -, qs, q3⟩ := h4 t P hP hs hw hinc
  refine ⟨q, q1, q2, fun d hl => ?_⟩
  obtain ⟨r1, r2, r3⟩ := q3 d hl
  refine ⟨r1, r2, fun hD => r3 fun vs hvs => ?_⟩
  have hn : c.col.n = N + 1 := by
    obtain ⟨col, N', e1, e2, e3, -⟩ := lgl_lengths (n := U.order) (by omega)
    obtain rfl : c.col = col := Except.ok.inj (h2.symm.trans e1)
    omega
  have key : ∀ n (x : Args), OCPoint P N xn.length un.length pn.length d n (argEnv ((c.side SExpr.arith SExpr.ev s).fn n).args x) → ∀ var,
      SmoothAt (SExpr.sym2num (shapeOf c.vars)) SExpr.ev (shapeOf c.vars) ((c.side SExpr.arith SExpr.ev s).fn n) var x := by
    intro n x hpt var
    have hsz : ∀ f : SymFn SExpr, Dict.get? c.model.funcs n = some f → f.out.length = f.outShape.prod → f.args.Nodup →
        (∀ a ∈ f.out, a.Defined (argEnv ((c.side SExpr.arith SExpr.ev s).fn n).args x)) → SmoothAt (SExpr.sym2num (shapeOf c.vars)) SExpr.ev (shapeOf c.vars)
          ((c.side SExpr.arith SExpr.ev s).fn n) var x := by
      intro f hf a1 a2 a3
      have : (c.side SExpr.arith SExpr.ev s).fn n = f := by change (Dict.get? c.model.funcs n).getD _ = _; rw [hf]; rfl
      rw [this] at a3 ⊢
      exact C66_expr_smooth _ f a1 a2 var x fun e he => a3 e he
    set env := argEnv ((c.side SExpr.arith SExpr.ev s).fn n).args x with henv
    have hpts : ∀ i < P, ∀ l < N + 1, i * N + l ≤ P * N := fun i hi l hl => by
      have := Nat.mul_le_mul_right N (show i + 1 ≤ P by omega)
      rw [Nat.add_mul, Nat.one_mul] at this
      omega
    rcases hpt with ⟨rfl | rfl, i, hi, rx, ru, rp⟩ | ⟨rfl, i, hi, rx, ru, rp⟩ | ⟨rfl | rfl, rx, rp⟩
    · refine hsz _ (hfn _ (by simp)) (by simp [hlen]) (show ["xp", "up", "p", "piece_len"].Nodup by decide)
        (symcolE_defined hT.f hE fun l hl => ?_)
      rw [hn] at hl
      rw [rx l hl, ru l hl, rp]
      exact hD.f _ (hpts i hi l hl)
    · refine hsz _ (hfn _ (by simp)) rfl (show ["xp", "up", "p", "piece_len"].Nodup by decide) ?_
      intro a ha
      rw [List.mem_singleton.1 ha]
      refine ⟨defined_dot (fun b hb => ?_) fun b hb => ?_, trivial⟩
      · obtain ⟨l, hl, rfl⟩ := List.mem_map.1 hb
        have hl := List.mem_range.1 hl
        rw [hn] at hl
        refine hT.L _ _ _ _ (argsIn_rows ?_)
        rw [rx l hl, ru l hl, rp]
        exact hD.L _ (hpts i hi l hl)
      · obtain ⟨i, -, rfl⟩ := List.mem_map.1 hb
        trivial
    · refine hsz _ (hfn _ (by simp)) (vec_size _ _) (show ["x", "u", "p"].Nodup by decide) (hT.g _ _ _ _ (argsIn_rows ?_))
      rw [rx, ru, rp]
      exact hD.g i (by omega)
    · refine hsz _ (hfn _ (by simp)) rfl (show ["xe", "p"].Nodup by decide) ?_
      intro a ha
      rw [List.mem_singleton.1 ha]
      refine hT.M _ _ _ (argsIn_ends ?_)
      rw [rx, rp]
      exact hD.M
    · refine hsz _ (hfn _ (by simp)) (vec_size _ _) (show ["xe", "p"].Nodup by decide) (hT.h _ _ _ (argsIn_ends ?_))
      rw [rx, rp]
      exact hD.h
  obtain ⟨s1, s2⟩ := qs d hl vs hvs
  exact ⟨fun o ho e he => key _ _ (s1 o ho e he) _, fun o ho e he => key _ _ (s2 o ho e he) _⟩

/-! ### An example: a pendulum swung up with a torque -/

namespace Pendulum
open SExpr

/-- The state is (angle, speed), the input is the torque, the parameter is the friction. -/
noncomputable def user : OCUser SExpr where
  order := 3
  f x u p :=
    [x.getD 1 (const 0), add (mul (const (-1)) (sin (x.getD 0 (const 0)))) (add (u.getD 0 (const 0))
      (mul (const (-1)) (mul (p.getD 0 (const 0)) (x.getD 1 (const 0)))))]
  L _ u _ := mul (u.getD 0 (const 0)) (u.getD 0 (const 0))
  M xe _ := mul (xe.getD 3 (const 0)) (xe.getD 3 (const 0))
  g x u _ := [mul (x.getD 1 (const 0)) (u.getD 0 (const 0))]
  h xe _ := [xe.getD 0 (const 0), xe.getD 1 (const 0), add (xe.getD 2 (const 0)) (const (-3))]

/-- The same on numbers. -/
noncomputable def functions : OCFunctions where
  f x u p := [x.getD 1 0, -Real.sin (x.getD 0 0) + (u.getD 0 0 - p.getD 0 0 * x.getD 1 0)]
  L _ u _ := u.getD 0 0 ^ 2
  M xe _ := xe.getD 3 0 ^ 2
  g x u _ := [x.getD 1 0 * u.getD 0 0]
  h xe _ := [xe.getD 0 0, xe.getD 1 0, xe.getD 2 0 - 3]

theorem getD_map_ev (l : List SExpr) (i : Nat) (env : Env) : (l.map (ev · env)).getD i 0 = ev (l.getD i (const 0)) env := by
  simp only [List.getD_eq_getElem?_getD, List.getElem?_map]
  cases l[i]? <;> rfl

theorem denotes : OCDenotes ev user functions 2 1 1 1 3 where
  lenf := fun _ _ _ _ _ _ => rfl
  leng := fun _ _ _ _ _ _ => rfl
  lenh := fun _ _ _ _ => rfl
  f := fun x u p env _ _ _ => by
    simp only [user, functions, List.map_cons, List.map_nil, ev, getD_map_ev]
    congr 2; ring
  L := fun x u p env _ _ _ => by simp only [user, functions, ev, getD_map_ev]; ring
  M := fun xe p env _ _ => by simp only [user, functions, ev, getD_map_ev]; ring
  g := fun x u p env _ _ _ => by simp only [user, functions, List.map_cons, List.map_nil, ev, getD_map_ev]
  h := fun xe p env _ _ => by
    simp only [user, functions, List.map_cons, List.map_nil, ev, getD_map_ev]
    congr 3

theorem total : OCTotal user where
  f := fun x u p hx hu hp a ha => by
    simp only [user, List.mem_cons, List.not_mem_nil, or_false] at ha
    rcases ha with rfl | rfl
    · exact total_getD hx 1
    · exact fun env => ⟨⟨trivial, total_getD hx 0 env⟩, total_getD hu 0 env, trivial, total_getD hp 0 env, total_getD hx 1 env⟩
  L := fun x u p _ hu _ env => ⟨total_getD hu 0 env, total_getD hu 0 env⟩
  M := fun xe p hx _ env => ⟨total_getD hx 3 env, total_getD hx 3 env⟩
  g := fun x u p hx hu _ a ha => by
    rw [List.mem_singleton.1 ha]
    exact fun env => ⟨total_getD hx 1 env, total_getD hu 0 env⟩
  h := fun xe p hx _ a ha => by
    simp only [user, List.mem_cons, List.not_mem_nil, or_false] at ha
    rcases ha with rfl | rfl | rfl
    · exact total_getD hx 0
    · exact total_getD hx 1
    · exact fun env => ⟨total_getD hx 2 env, trivial⟩

def vars : Dict String SymVar := [("x", .vec ["angle", "speed"]), ("u", .vec ["torque"]), ("p", .vec ["friction"]), ("y", .vec ["angle_meas"])]

theorem vars_ok : ColVars vars ["angle", "speed"] ["torque"] ["friction"] where
  keys := by decide
  x := rfl
  u := Or.inl rfl
  p := Or.inl rfl
  pieceLen := fun v h => by cases h

def iter (n : String) : List String := ((ocWrt.find? fun fa => fa.1 = n).map fun fa => fa.2.reverse).getD []

theorem iter_ok : OrdersOK iter ocWrt := by unfold OrdersOK; decide

/-- All hypotheses of C70 hold, here with two pieces: sixteen decision variables, exact derivatives at every
decision vector. -/
example : ∃ c, symocInit SExpr.arith user iter vars ["xe", "y"] = .ok c ∧ ∃ m, symocGen (exprCode (shapeOf c.vars)) user c = .ok m ∧
    ∃ q, ocProblem m ⟨[3], [0, 1, 3]⟩ = .ok q ∧ q.prob.ndec = 16 ∧
      ∀ d : List ℝ, d.length = 16 → DerivativesRight q.prob d := by
  obtain ⟨c, h1, -, m, h2, h3⟩ := C70_oc_expr user total functions (xn := ["angle", "speed"]) (un := ["torque"]) (pn := ["friction"]) (N := 2) denotes rfl (by decide) vars_ok (decision := ["xe", "y"])
    (by unfold DecisionOK; decide) iter_ok
  obtain ⟨q, q1, q2, q3⟩ := h3 ⟨[3], [0, 1, 3]⟩ 2 (by decide) rfl rfl (by simp)
  exact ⟨c, h1, m, h2, q, q1, q2, fun d hd => (q3 d (by rw [q2]; exact hd)).2.2⟩

end Pendulum

/-! ### An example with a reciprocal: a rocket -/

namespace Rocket
open SExpr

/-- The state is (speed, mass), the input is the thrust; the fuel used is to be as small as possible. -/
noncomputable def user : OCUser SExpr where
  order := 3
  f x u _ := [mul (u.getD 0 (const 0)) (inv (x.getD 1 (const 0))), mul (const (-1)) (u.getD 0 (const 0))]
  L _ u _ := u.getD 0 (const 0)
  M _ _ := const 0
  g _ _ _ := []
  h xe _ := [xe.getD 0 (const 0), add (xe.getD 2 (const 0)) (const (-3))]

noncomputable def functions : OCFunctions where
  f x u _ := [u.getD 0 0 / x.getD 1 0, -u.getD 0 0]
  L _ u _ := u.getD 0 0
  M _ _ := 0
  g _ _ _ := []
  h xe _ := [xe.getD 0 0, xe.getD 2 0 - 3]

theorem denotes : OCDenotes ev user functions 2 1 0 0 2 where
  lenf := fun _ _ _ _ _ _ => rfl
  leng := fun _ _ _ _ _ _ => rfl
  lenh := fun _ _ _ _ => rfl
  f := fun x u p env _ _ _ => by
    simp only [user, functions, List.map_cons, List.map_nil, ev, Pendulum.getD_map_ev, div_eq_mul_inv]
    congr 2; ring
  L := fun x u p env _ _ _ => by simp only [user, functions, Pendulum.getD_map_ev]
  M := fun xe p env _ _ => rfl
  g := fun x u p env _ _ _ => rfl
  h := fun xe p env _ _ => by
    simp only [user, functions, List.map_cons, List.map_nil, ev, Pendulum.getD_map_ev]
    congr 2

/-- The mass is not zero. -/
def domain : OCDomain where
  f x _ _ := x.getD 1 0 ≠ 0
  L _ _ _ := True
  M _ _ := True
  g _ _ _ := True
  h _ _ := True

theorem definedOn : OCDefinedOn user domain where
  f := fun x u p env ⟨hd, hm⟩ a ha => by
    have hx := defined_getD (l := x) (env := env) fun a ha => hd a (by simp [ha])
    have hu := defined_getD (l := u) (env := env) fun a ha => hd a (by simp [ha])
    simp only [user, List.mem_cons, List.not_mem_nil, or_false] at ha
    rcases ha with rfl | rfl
    · exact ⟨hu 0, hx 1, by rw [← Pendulum.getD_map_ev]; exact hm⟩
    · exact ⟨trivial, hu 0⟩
  L := fun x u p env ⟨hd, _⟩ => defined_getD (fun a ha => hd a (by simp [ha])) 0
  M := fun xe p env _ => trivial
  g := fun x u p env _ a ha => by cases ha
  h := fun xe p env ⟨hd, _⟩ a ha => by
    have hx := defined_getD (l := xe) (env := env) fun a ha => hd a (by simp [ha])
    simp only [user, List.mem_cons, List.not_mem_nil, or_false] at ha
    rcases ha with rfl | rfl
    · exact hx 0
    · exact ⟨hx 2, trivial⟩

def vars : Dict String SymVar := [("x", .vec ["speed", "mass"]), ("u", .vec ["thrust"]), ("p", .vec [])]

theorem vars_ok : ColVars vars ["speed", "mass"] ["thrust"] [] where
  keys := by decide
  x := rfl
  u := Or.inl rfl
  p := Or.inl rfl
  pieceLen := fun v h => by cases h

/-- All hypotheses of C70 hold: fifteen decision variables, and exact derivatives wherever no mass on the grid is zero. -/
example : ∃ c, symocInit SExpr.arith user Pendulum.iter vars [] = .ok c ∧ ∃ m, symocGen (exprCode (shapeOf c.vars)) user c = .ok m ∧
    ∃ q, ocProblem m ⟨[3], [0, 1, 3]⟩ = .ok q ∧ q.prob.ndec = 15 ∧
      ∀ d : List ℝ, d.length = 15 → (∀ r ≤ 4, d.getD (r * 2 + 1) 0 ≠ 0) → DerivativesRight q.prob d := by
  obtain ⟨c, h1, -, m, h2, h3⟩ := C70_oc_expr_at user domain definedOn functions (xn := ["speed", "mass"]) (un := ["thrust"]) (pn := []) (N := 2)
    denotes rfl (by decide) vars_ok (decision := []) (by unfold DecisionOK; decide) Pendulum.iter_ok
  obtain ⟨q, q1, q2, q3⟩ := h3 ⟨[3], [0, 1, 3]⟩ 2 (by decide) rfl rfl (by simp)
  refine ⟨c, h1, m, h2, q, q1, q2, fun d hd hm => (q3 d (by rw [q2]; exact hd)).2.2 ⟨fun r hr => ?_, fun _ _ => trivial, trivial, fun _ _ => trivial, trivial⟩⟩
  have := hm r hr
  change d.getD (0 + (r * 2 + 1)) 0 ≠ 0
  rwa [Nat.zero_add]

end Rocket
end Ceacoest
