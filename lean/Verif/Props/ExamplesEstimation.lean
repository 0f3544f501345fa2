import Verif.Props.Examples
import Verif.Props.TranscriptionJMEExpr

/-! # C73: the estimation examples -/

namespace Ceacoest
open Spec RK

/-- The logarithm of a normal density without the constant. -/
noncomputable def logNormal (x mean std : ℝ) : ℝ := -(x - mean) ^ 2 / (2 * std ^ 2) - Real.log std

/-- A decision vector is above its lower bounds. -/
def AboveBounds (lower : List (Option ℝ)) (d : List ℝ) : Prop := ∀ i b, lower[i]? = some (some b) → b ≤ d.getD i 0

namespace Examples
open SExpr

theorem logpdf_ev (x m s : SExpr) (env : Env) : ev (normalLogpdf1Expr x m s) env = logNormal (ev x env) (ev m env) (ev s env) := by
  simp only [normalLogpdf1Expr, ev, logNormal]
  rw [div_eq_mul_inv]
  ring_nf

theorem logpdf_defined {x m s : SExpr} {env : Env} (hx : x.Defined env) (hm : m.Defined env) (hs : s.Defined env) (h : 0 < ev s env) :
    (normalLogpdf1Expr x m s).Defined env := by
  refine ⟨trivial, ⟨⟨trivial, ⟨hx, trivial, hm⟩, hx, trivial, hm⟩, ⟨trivial, hs, hs⟩, ?_⟩, trivial, hs, h⟩
  change 2 * (ev s env * ev s env) ≠ 0
  positivity

/-- Given the sum `S` of the squares of `n` residuals, the log-likelihood is greatest for the standard deviation `sqrt (S / n)`. -/
theorem std_best {S n s : ℝ} (hS : 0 < S) (hn : 0 < n) (hs : 0 < s) :
    -S / (2 * s ^ 2) - n * Real.log s ≤ -S / (2 * √(S / n) ^ 2) - n * Real.log (√(S / n)) := by
  have hr : 0 < S / (n * s ^ 2) := by positivity
  have h1 := Real.log_le_sub_one_of_pos hr
  have h2 : Real.log (S / (n * s ^ 2)) = Real.log (S / n) - 2 * Real.log s := by
    rw [← div_div, Real.log_div (by positivity) (by positivity), Real.log_pow]
    norm_num
  rw [Real.sq_sqrt (by positivity), Real.log_sqrt (by positivity)]
  have e1 : -S / (2 * s ^ 2) = -(n / 2) * (S / (n * s ^ 2)) := by field_simp
  have e2 : -S / (2 * (S / n)) = -(n / 2) := by field_simp
  rw [e1, e2]
  nlinarith [mul_le_mul_of_nonneg_left h1 hn.le]

end Examples

/-! ### The ATTAS short period -/

namespace Attas
open SExpr

/-- The methods on numbers. -/
noncomputable def functions : OEMFunctions where
  f x u p := [p.getD 4 0 + p.getD 5 0 * x.getD 1 0 + p.getD 6 0 * x.getD 0 0 + p.getD 7 0 * u.getD 0 0,
    p.getD 0 0 + p.getD 1 0 * x.getD 1 0 + (p.getD 2 0 + 1) * x.getD 0 0 + p.getD 3 0 * u.getD 0 0]
  L y x _ p := logNormal (y.getD 1 0) (x.getD 1 0) (p.getD 8 0) + logNormal (y.getD 0 0) (x.getD 0 0) (p.getD 9 0)

theorem denotes : OEMDenotes ev attas functions 2 1 10 2 where
  lenf := fun _ _ _ _ _ _ => rfl
  f := fun x u p env _ _ _ => by
    simp only [attas, functions, List.map_cons, List.map_nil, ev, Pendulum.getD_map_ev]
  L := fun y x u p env _ _ _ _ => by
    simp only [attas, functions, ev, Pendulum.getD_map_ev, Examples.logpdf_ev]

theorem definedOn : OEMDefinedOn attas (fun _ _ _ => True) fun _ _ _ p => 0 < p.getD 8 0 ∧ 0 < p.getD 9 0 where
  f := fun x u p env ⟨hd, _⟩ a ha => by
    have hx := defined_getD (l := x) (env := env) fun a ha => hd a (by simp [ha])
    have hu := defined_getD (l := u) (env := env) fun a ha => hd a (by simp [ha])
    have hp := defined_getD (l := p) (env := env) fun a ha => hd a (by simp [ha])
    simp only [attas, List.mem_cons, List.not_mem_nil, or_false] at ha
    rcases ha with rfl | rfl
    · exact ⟨⟨⟨hp 4, hp 5, hx 1⟩, hp 6, hx 0⟩, hp 7, hu 0⟩
    · exact ⟨⟨⟨hp 0, hp 1, hx 1⟩, ⟨hp 2, trivial⟩, hx 0⟩, hp 3, hu 0⟩
  L := fun y x u p env hy ⟨hd, h8, h9⟩ => by
    have hx := defined_getD (l := x) (env := env) fun a ha => hd a (by simp [ha])
    have hp := defined_getD (l := p) (env := env) fun a ha => hd a (by simp [ha])
    rw [Pendulum.getD_map_ev] at h8 h9
    exact ⟨Examples.logpdf_defined (defined_getD hy 1) (hx 1) (hp 8) h8, Examples.logpdf_defined (defined_getD hy 0) (hx 0) (hp 9) h9⟩

abbrev pn : List String := ["Z0", "Zalpha", "Zq", "Zde", "M0", "Malpha", "Mq", "Mde", "alpha_meas_std", "q_meas_std"]

theorem vars_ok : ColVars attasVars ["q", "alpha"] ["de"] pn where
  keys := by decide
  x := rfl
  u := Or.inl rfl
  p := Or.inl rfl
  pieceLen := fun v h => by cases h

/-- The log-likelihood: `n` rows of measurements (pitch rate, angle of attack), the states at every second grid point, and the two standard
deviations in the last two entries of the decision vector. -/
noncomputable def logL (y : List ℝ) (n : Nat) (d : List ℝ) : ℝ :=
  ∑ k ∈ Finset.range n, (logNormal (y.getD (k * 2 + 1) 0) (d.getD (k * 2 * 2 + 1) 0) (d.getD (d.length - 2) 0) +
    logNormal (y.getD (k * 2) 0) (d.getD (k * 2 * 2) 0) (d.getD (d.length - 1) 0))

end Attas

open Attas in
/-- **C73.** The ATTAS example, for any record of measurements: the objective is the log-likelihood of all measurements; the constraints all
vanish if and only if the decision vector holds the points of a collocation solution of the short period equations; the derivatives
are exact wherever both standard deviations are positive, in particular within the bounds. -/
theorem C73_attas {iter : String → List String} (hi : OrdersOK iter oemWrt) :
    ∃ c, symoemInit SExpr.arith 3 (oemMethods SExpr.arith attas) iter attasVars [] = .ok c ∧
      ∃ m, symoemGen (exprCode (shapeOf c.vars)) 3 c = .ok m ∧ m.collocationOrder = 3 ∧ m.nu = 1 ∧ m.ny = 2 ∧
      ∀ (t : NDArray ℝ) (y : MaskedArray) (u : UArg) (ua : NDArray ℝ) (P : Nat), OEMInput m t y P → InputsOK m t u ua →
      (∀ b ∈ y.mask, b = false) →
      ∃ q, oemProblem ColProblem.initVars m t y u = .ok q ∧ q.prob.ndec = (P * 2 + 1) * 2 + 10 ∧ ∀ d : List ℝ, d.length = q.prob.ndec →
        q.prob.obj d = .ok (logL y.arr.data (P + 1) d) ∧
        (0 < d.getD (d.length - 2) 0 → 0 < d.getD (d.length - 1) 0 → DerivativesRight q.prob d) ∧
        (AboveBounds (attasLower d.length) d → DerivativesRight q.prob d) ∧
        ∃ cv, q.prob.constr d = .ok cv ∧ cv.length = P * (2 * 2) ∧
        cv = oemConstraints functions c.col.J (diff t.data) ua.data P 2 2 1 (rowAt d ((P * 2 + 1) * 2) 10 0) d ∧
        ((∀ a ∈ cv, a = 0) ↔ ∃ z, CollocationPath t.data c.col.points
          (fun i l => functions.f (rowAt d 0 2 (i * 2 + l)) (rowAt ua.data 0 1 (i * 2 + l)) (rowAt d ((P * 2 + 1) * 2) 10 0))
          (fun i l => rowAt d 0 2 (i * 2 + l)) P 2 2 z) := by
  have hdec : DecisionOK attasVars ["x", "p", "xp"] ["y", "u", "up", "piece_len"] [] := by unfold DecisionOK; decide
  obtain ⟨c, h1, h2, m, h3, m1, -, m3, -, m5, h4⟩ := C70_oem_expr_at attas definedOn functions (xn := ["q", "alpha"]) (un := ["de"]) (pn := pn)
    (yn := ["q_meas", "alpha_meas"]) (N := 2) denotes rfl (by decide) vars_ok rfl hdec hi
  refine ⟨c, h1, m, h3, m1, m3, m5, fun t y u ua P hin hu hmask => ?_⟩
  obtain ⟨q, rows, q1, qr, q2, q3⟩ := h4 t y u ua P hin hu
  obtain ⟨c', k1, k2⟩ := C72_oem arith_ok attas functions (xn := ["q", "alpha"]) (un := ["de"]) (pn := pn)
    (yn := ["q_meas", "alpha_meas"]) (N := 2) denotes rfl (by decide) vars_ok rfl hdec hi
  obtain rfl : c = c' := Except.ok.inj (h1.symm.trans k1)
  obtain ⟨m', k3, k4⟩ := k2 (exprCode (shapeOf c.vars)) fun _ g _ => C66_expr_code _ g
  obtain rfl : m = m' := Except.ok.inj (h3.symm.trans k3)
  obtain ⟨q', k5, k6⟩ := k4 t y u ua P hin hu
  obtain rfl : q = q' := Except.ok.inj (q1.symm.trans k5)
  have hrows : rows = List.range (P + 1) := by
    refine List.Perm.eq_of_pairwise (le := (· < ·)) (fun a b _ _ h h' => absurd h (by omega)) qr.1 List.pairwise_lt_range ?_
    refine (List.perm_ext_iff_of_nodup (qr.1.imp fun h => Nat.ne_of_lt h) List.nodup_range).2 fun k => ?_
    rw [qr.2, List.mem_range, and_iff_left_iff_imp]
    intro hk
    have hl : k * 2 + 0 < y.mask.length := by rw [hin.ymask, m5]; change _ < (P + 1) * 2; omega
    exact ⟨0, by decide, (getD_of_lt y.mask true hl).trans (hmask _ (List.getElem_mem _))⟩
  subst hrows
  refine ⟨q, q1, q2, fun d hd => ?_⟩
  have hlen : d.length = (P * 2 + 1) * 2 + 10 := hd.trans q2
  obtain ⟨r1, r2, r3⟩ := q3 d _ hd rfl
  have hp8 : (rowAt d ((P * 2 + 1) * 2) 10 0).getD 8 0 = d.getD (d.length - 2) 0 := by rw [hlen]; rfl
  have hp9 : (rowAt d ((P * 2 + 1) * 2) 10 0).getD 9 0 = d.getD (d.length - 1) 0 := by rw [hlen]; rfl
  have hder : 0 < d.getD (d.length - 2) 0 → 0 < d.getD (d.length - 1) 0 → DerivativesRight q.prob d := fun a b =>
    r3 (fun _ _ => trivial) fun _ _ => ⟨by rw [← hp8] at a; exact a, by rw [← hp9] at b; exact b⟩
  refine ⟨?_, hder, fun hb => hder ?_ ?_, ?_⟩
  · rw [r1]
    unfold logLikelihood logL
    refine congrArg Except.ok ?_
    change ((List.range (P + 1)).map _).sum = ((List.range (P + 1)).map _).sum
    congr 1
    refine List.map_congr_left fun k hk => ?_
    change logNormal ((rowAt y.arr.data 0 2 k).getD 1 0) ((rowAt d 0 2 (k * 2)).getD 1 0) ((rowAt d ((P * 2 + 1) * 2) 10 0).getD 8 0) +
      logNormal ((rowAt y.arr.data 0 2 k).getD 0 0) ((rowAt d 0 2 (k * 2)).getD 0 0) ((rowAt d ((P * 2 + 1) * 2) 10 0).getD 9 0) = _
    rw [hp8, hp9]
    change logNormal (y.arr.data.getD (0 + (k * 2 + 1)) 0) (d.getD (0 + (k * 2 * 2 + 1)) 0) _ +
      logNormal (y.arr.data.getD (0 + (k * 2 + 0)) 0) (d.getD (0 + (k * 2 * 2 + 0)) 0) _ = _
    simp only [Nat.zero_add, Nat.add_zero]
  · have := hb (d.length - 2) 0.0001 (by rw [attasLower, List.getElem?_set_ne (by omega), List.getElem?_set_self (by simp; omega)])
    linarith
  · have := hb (d.length - 1) 0.00025 (by rw [attasLower, List.getElem?_set_self (by simp; omega)])
    linarith
  · obtain ⟨cv, e1, e2, e3⟩ := k6 d hd
    exact ⟨cv, e1, e2, Except.ok.inj (e1.symm.trans r2), e3⟩

namespace Attas

/-- The part of the log-likelihood of column `j` of the measurements, from the sum of the squares of its residuals. -/
noncomputable def residual (y d : List ℝ) (n j : Nat) : ℝ := ∑ k ∈ Finset.range n, (y.getD (k * 2 + j) 0 - d.getD (k * 2 * 2 + j) 0) ^ 2

theorem column (y d : List ℝ) (n j : Nat) (s : ℝ) :
    ∑ k ∈ Finset.range n, logNormal (y.getD (k * 2 + j) 0) (d.getD (k * 2 * 2 + j) 0) s =
      -residual y d n j / (2 * s ^ 2) - n * Real.log s := by
  simp only [logNormal, Finset.sum_sub_distrib, Finset.sum_const, Finset.card_range, nsmul_eq_mul, residual, ← Finset.sum_div,
    Finset.sum_neg_distrib]

theorem logL_eq (y d : List ℝ) (n : Nat) :
    logL y n d = (-residual y d n 1 / (2 * d.getD (d.length - 2) 0 ^ 2) - n * Real.log (d.getD (d.length - 2) 0)) +
      (-residual y d n 0 / (2 * d.getD (d.length - 1) 0 ^ 2) - n * Real.log (d.getD (d.length - 1) 0)) := by
  rw [← column, ← column, logL, Finset.sum_add_distrib]
  rfl

theorem getD_set_ne {d : List ℝ} {i k : Nat} {v : ℝ} (h : i ≠ k) : (d.set k v).getD i 0 = d.getD i 0 := by
  simp [List.getD_eq_getElem?_getD, List.getElem?_set, Ne.symm h]

theorem getD_set_eq {d : List ℝ} {k : Nat} {v : ℝ} (h : k < d.length) : (d.set k v).getD k 0 = v := by
  simp [List.getD_eq_getElem?_getD, h]

theorem residual_set {y d : List ℝ} {n i k : Nat} {v : ℝ} (hi : i < 2) (hk : (n - 1) * 2 * 2 + 2 ≤ k) :
    residual y (d.set k v) n i = residual y d n i := by
  refine Finset.sum_congr rfl fun a ha => ?_
  rw [Finset.mem_range] at ha
  rw [getD_set_ne (by omega)]

theorem constraints_set {J : List (List ℝ)} {len u d : List ℝ} {P k : Nat} {v : ℝ} (hk : (P * 2 + 1) * 2 + 8 ≤ k) :
    oemConstraints functions J len u P 2 2 1 (rowAt (d.set k v) ((P * 2 + 1) * 2) 10 0) (d.set k v) =
      oemConstraints functions J len u P 2 2 1 (rowAt d ((P * 2 + 1) * 2) 10 0) d := by
  have hrow : ∀ i ≤ P * 2, rowAt (d.set k v) 0 2 i = rowAt d 0 2 i := fun i hi => rowAt_congr fun j hj => getD_set_ne (by omega)
  have hp : ∀ a < 8, (rowAt (d.set k v) ((P * 2 + 1) * 2) 10 0).getD a 0 = (rowAt d ((P * 2 + 1) * 2) 10 0).getD a 0 := by
    intro a ha
    have e : ∀ b : List ℝ, (rowAt b ((P * 2 + 1) * 2) 10 0).getD a 0 = b.getD ((P * 2 + 1) * 2 + (0 * 10 + a)) 0 := by
      intro b
      simp [rowAt, List.getD_eq_getElem?_getD, show a < 10 by omega]
    rw [e, e]
    exact getD_set_ne (by omega)
  unfold oemConstraints
  refine List.flatMap_congr fun i hi => ?_
  have hi' := List.mem_range.1 hi
  refine defects_congr (fun l hl => ?_) fun l hl => ?_
  · rw [hrow _ (by omega)]
    simp only [functions]
    rw [hp 4 (by decide), hp 5 (by decide), hp 6 (by decide), hp 7 (by decide), hp 0 (by decide), hp 1 (by decide), hp 2 (by decide),
      hp 3 (by decide)]
  · exact hrow _ (by omega)

end Attas

open Attas in
/-- **C73.** The standard deviations of the ATTAS example: replacing the one of the angle of attack (`j = 1`) or of the pitch rate (`j = 0`) by
the root mean square of its residuals changes no constraint and never lowers the objective. -/
theorem C73_attas_std {iter : String → List String} (hi : OrdersOK iter oemWrt) :
    ∃ c, symoemInit SExpr.arith 3 (oemMethods SExpr.arith attas) iter attasVars [] = .ok c ∧
      ∃ m, symoemGen (exprCode (shapeOf c.vars)) 3 c = .ok m ∧ m.collocationOrder = 3 ∧ m.nu = 1 ∧ m.ny = 2 ∧
      ∀ (t : NDArray ℝ) (y : MaskedArray) (u : UArg) (ua : NDArray ℝ) (P : Nat), OEMInput m t y P → InputsOK m t u ua →
      (∀ b ∈ y.mask, b = false) →
      ∃ q, oemProblem ColProblem.initVars m t y u = .ok q ∧ ∀ d : List ℝ, d.length = q.prob.ndec → ∀ j < 2,
        0 < d.getD (d.length - 1 - j) 0 →
        ∀ S, S = ∑ k ∈ Finset.range (P + 1), (y.arr.data.getD (k * 2 + j) 0 - d.getD (k * 2 * 2 + j) 0) ^ 2 → 0 < S →
        ∀ d', d' = d.set (d.length - 1 - j) (√(S / (P + 1 : ℕ))) →
        ∃ a b cv, q.prob.obj d = .ok a ∧ q.prob.obj d' = .ok b ∧ a ≤ b ∧ q.prob.constr d = .ok cv ∧ q.prob.constr d' = .ok cv := by
  obtain ⟨c, h1, m, h2, m1, m2, m3, h3⟩ := C73_attas hi
  refine ⟨c, h1, m, h2, m1, m2, m3, fun t y u ua P hin hu hmask => ?_⟩
  obtain ⟨q, q1, q2, q3⟩ := h3 t y u ua P hin hu hmask
  refine ⟨q, q1, fun d hd j hj hpos S hS hS0 d' hd' => ?_⟩
  have hlen : d.length = (P * 2 + 1) * 2 + 10 := hd.trans q2
  have hlen' : d'.length = d.length := by rw [hd', List.length_set]
  obtain ⟨o1, -, -, cv, v1, -, v2, -⟩ := q3 d hd
  obtain ⟨o2, -, -, cv', v1', -, v2', -⟩ := q3 d' (hlen'.trans hd)
  refine ⟨_, _, cv, o1, o2, ?_, v1, ?_⟩
  · have best := Examples.std_best hS0 (n := (P + 1 : ℕ)) (by positivity) hpos
    change S = residual y.arr.data d (P + 1) j at hS
    have r0 : residual y.arr.data d' (P + 1) 0 = residual y.arr.data d (P + 1) 0 := by
      rw [hd']; exact residual_set (by decide) (by omega)
    have r1 : residual y.arr.data d' (P + 1) 1 = residual y.arr.data d (P + 1) 1 := by
      rw [hd']; exact residual_set (by decide) (by omega)
    rw [logL_eq, logL_eq, hlen', r0, r1]
    obtain rfl | rfl : j = 0 ∨ j = 1 := by omega
    · have e1 : d'.getD (d.length - 1) 0 = √(S / (P + 1 : ℕ)) := by rw [hd']; exact getD_set_eq (by omega)
      have e2 : d'.getD (d.length - 2) 0 = d.getD (d.length - 2) 0 := by rw [hd']; exact getD_set_ne (by omega)
      rw [e1, e2, ← hS]
      exact add_le_add_right best _
    · have e1 : d'.getD (d.length - 2) 0 = √(S / (P + 1 : ℕ)) := by rw [hd']; exact getD_set_eq (by omega)
      have e2 : d'.getD (d.length - 1) 0 = d.getD (d.length - 1) 0 := by rw [hd']; exact getD_set_ne (by omega)
      rw [e1, e2, ← hS]
      exact add_le_add_left best _
  · rw [v1', v2', hd', constraints_set (by omega), ← v2]

/-- Three pieces of a record with inputs at seven points: 24 decision variables. -/
example : ∃ c, symoemInit SExpr.arith 3 (oemMethods SExpr.arith attas) PendulumId.iter attasVars [] = .ok c ∧
    ∃ m, symoemGen (exprCode (shapeOf c.vars)) 3 c = .ok m ∧
    ∃ q, oemProblem ColProblem.initVars m ⟨[4], [0, 1, 2, 3]⟩ ⟨⟨[4, 2], [1, 2, 3, 4, 5, 6, 7, 8]⟩, List.replicate 8 false⟩
      (.callable fun _ => .ok (.array ⟨[7, 1], [1, 2, 3, 4, 5, 6, 7]⟩)) = .ok q ∧ q.prob.ndec = 24 := by
  obtain ⟨c, h1, m, h2, m1, m2, m3, h3⟩ := C73_attas PendulumId.iter_ok
  have hin : OEMInput m ⟨[4], [0, 1, 2, 3]⟩ ⟨⟨[4, 2], [1, 2, 3, 4, 5, 6, 7, 8]⟩, List.replicate 8 false⟩ 3 :=
    ⟨by rw [m1]; decide, by decide, rfl, rfl, by norm_num, by rw [m3], rfl, by rw [m3]; rfl⟩
  obtain ⟨q, q1, q2, -⟩ := h3 _ _ (.callable fun _ => .ok (.array ⟨[7, 1], [1, 2, 3, 4, 5, 6, 7]⟩)) ⟨[7, 1], [1, 2, 3, 4, 5, 6, 7]⟩ 3 hin (by
    intro col tc hcol htc
    obtain ⟨col', tc', g1, g2, g3, -, g5, g6, -⟩ := create_eq m.toColModel hin.order ⟨[4], [0, 1, 2, 3]⟩ 3 rfl rfl hin.tinc
    have e1 : lglCollocation m.collocationOrder = .ok col' := g1
    rw [hcol] at e1
    cases e1
    rw [htc] at g5
    cases g5
    have hn : col.ninterv = 2 := by
      have : (col.n : Int) = 3 := by rw [← m1]; exact g2
      omega
    refine ⟨rfl, ?_, rfl⟩
    rw [g6, hn, m2]) (by simp)
  exact ⟨c, h1, m, h2, q, q1, q2⟩

/-! ### The Duffing oscillator -/

namespace Duffing
open SExpr

/-- The methods on numbers. -/
noncomputable def functions : OEMFunctions where
  f x u p := [x.getD 1 0, -p.getD 3 0 * x.getD 1 0 - p.getD 2 0 * x.getD 0 0 - p.getD 1 0 * x.getD 0 0 ^ 3 + p.getD 0 0 * u.getD 0 0]
  L y x _ p := logNormal (y.getD 0 0) (x.getD 0 0) (p.getD 4 0)

theorem denotes (jt : List (List ℝ)) : OEMDenotes ev (duffing jt).toOEMUser functions 2 1 5 1 where
  lenf := fun _ _ _ _ _ _ => rfl
  f := fun x u p env _ _ _ => by
    simp only [duffing, functions, List.map_cons, List.map_nil, ev, Pendulum.getD_map_ev]
    congr 2
    ring
  L := fun y x u p env _ _ _ _ => by
    simp only [duffing, functions, Pendulum.getD_map_ev, Examples.logpdf_ev]

theorem total (jt : List (List ℝ)) (x u p : List SExpr) (hx : ∀ a ∈ x, a.Total) (hu : ∀ a ∈ u, a.Total) (hp : ∀ a ∈ p, a.Total) :
    ∀ a ∈ (duffing jt).f x u p, a.Total := by
  intro a ha
  simp only [duffing, List.mem_cons, List.not_mem_nil, or_false] at ha
  rcases ha with rfl | rfl
  · exact total_getD hx 1
  · exact fun env => ⟨⟨⟨⟨⟨trivial, total_getD hp 3 env⟩, total_getD hx 1 env⟩, trivial, total_getD hp 2 env, total_getD hx 0 env⟩, trivial,
      total_getD hp 1 env, total_getD hx 0 env, total_getD hx 0 env, total_getD hx 0 env⟩, total_getD hp 0 env, total_getD hu 0 env⟩

theorem definedL (jt : List (List ℝ)) (y x u p : List SExpr) (env : Env) (hy : ∀ a ∈ y, a.Defined env)
    (h : ArgsIn (fun _ _ p => 0 < p.getD 4 0) x u p env) : ((duffing jt).L y x u p).Defined env := by
  obtain ⟨hd, h4⟩ := h
  have hx := defined_getD (l := x) (env := env) fun a ha => hd a (by simp [ha])
  have hp := defined_getD (l := p) (env := env) fun a ha => hd a (by simp [ha])
  rw [Pendulum.getD_map_ev] at h4
  exact Examples.logpdf_defined (defined_getD hy 0) (hx 0) (hp 4) h4

abbrev pn : List String := ["gamma", "alpha", "beta", "delta", "x1_meas_std"]

theorem vars_ok : ColVars duffingVars ["x1", "x2"] ["u1"] pn where
  keys := by decide
  x := rfl
  u := Or.inl rfl
  p := Or.inl rfl
  pieceLen := fun v h => by cases h

/-- The divergence of the noisy part of the drift is minus the damping. -/
theorem div_eq (x u p : List ℝ) (hx : x.length = 2) : functions.withDiv.div x u p 1 = -p.getD 3 0 := by
  obtain ⟨a, b, rfl⟩ : ∃ a b, x = [a, b] := by
    match x, hx with
    | [a, b], _ => exact ⟨a, b, rfl⟩
  change _root_.deriv (fun s => -p.getD 3 0 * s - p.getD 2 0 * a - p.getD 1 0 * a ^ 3 + p.getD 0 0 * u.getD 0 0) b = _
  have := ((((hasDerivAt_id b).const_mul (-p.getD 3 0)).sub_const (p.getD 2 0 * a)).sub_const (p.getD 1 0 * a ^ 3)).add_const
    (p.getD 0 0 * u.getD 0 0)
  exact (this.congr_deriv (mul_one _)).deriv

/-- The tube of a piece. -/
theorem tube_eq (x : Nat → List ℝ) (hx : ∀ l, (x l).length = 2) (u : Nat → List ℝ) (p : List ℝ) (w : Nat → List ℝ) (K : List ℝ)
    (hK : ∑ l ∈ Finset.range 3, K.getD l 0 = 1) (len : ℝ) :
    tubeDensity true (fun l => functions.withDiv.div (x l) (u l) p) w K 2 2 1 len =
      p.getD 3 0 / 2 * len - 1 / 2 * ((∑ l ∈ Finset.range 3, K.getD l 0 * (w l).getD 0 0 ^ 2) * len) := by
  have e : ∀ l, driftDiv (functions.withDiv.div (x l) (u l) p) 2 1 = -p.getD 3 0 := by
    intro l
    rw [← div_eq (x l) (u l) p (hx l)]
    simp [driftDiv, Finset.sum_range_succ]
  unfold tubeDensity
  simp only [e, if_true, Finset.sum_range_one]
  have : ∑ l ∈ Finset.range (2 + 1), -(1 / 2) * (-p.getD 3 0 + (w l).getD 0 0 ^ 2) * K.getD l 0 =
      p.getD 3 0 / 2 * ∑ l ∈ Finset.range 3, K.getD l 0 - 1 / 2 * ∑ l ∈ Finset.range 3, K.getD l 0 * (w l).getD 0 0 ^ 2 := by
    rw [Finset.mul_sum, Finset.mul_sum, ← Finset.sum_sub_distrib]
    exact Finset.sum_congr rfl fun l _ => by ring
  rw [this, hK]
  ring

theorem rhs_eq (f w : List ℝ) : noisyRhs f w (rowAt duffingG.data 0 1) 2 1 = [f.getD 0 0, f.getD 1 0 + 0.1 * w.getD 0 0] := by
  have : ∀ i, (rowAt duffingG.data 0 1 i).getD 0 0 = duffingG.data.getD i 0 := fun i => by simp [rowAt]
  simp [noisyRhs, List.range_succ, duffingG, rowAt, mul_comm]

end Duffing

open Duffing in
/-- **C73.** The Duffing example, for any record of measurements and any matrix `JT_range` of three rows and two columns: the objective is the
log-likelihood of the rows with measurements, plus half the damping times the duration, minus half the energy of the noise; the
constraints all vanish if and only if the decision vector holds the points of a collocation solution of the oscillator with that
noise; the derivatives are exact wherever the standard deviation is positive, in particular within the bounds. -/
theorem C73_duffing (jt : List (List ℝ)) (hjt : jt.length = 3 ∧ ∀ r ∈ jt, r.length = 2) {iter : String → List String} (hi : OrdersOK iter jmeWrt) :
    ∃ c, symjmeInit SExpr.arith (duffing jt) iter duffingVars [] = .ok c ∧
      ∃ m, symjmeGen (exprCode (shapeOf c.vars)) (duffing jt) duffingG none c = .ok m ∧ m.collocationOrder = 3 ∧ m.nu = 1 ∧ m.ny = 1 ∧
      ∀ (t : NDArray ℝ) (y : MaskedArray) (u : UArg) (ua : NDArray ℝ) (P : Nat), OEMInput m.toOEMModel t y P → InputsOK m.toOEMModel t u ua →
      ∃ q rows, jmeProblem m t y u = .ok q ∧ MeasuredRows y.mask (P + 1) 1 rows ∧ q.prob.ndec = (P * 2 + 1) * 2 + P * 2 + 5 ∧
      ∀ d : List ℝ, d.length = q.prob.ndec →
        let p := rowAt d ((P * 2 + 1) * 2 + P * 2) 5 0
        let w := fun i => noiseAt jt (fun k => [d.getD ((P * 2 + 1) * 2 + (i * 2 + k)) 0]) 2 1
        q.prob.obj d = .ok ((rows.map fun k => logNormal (y.arr.data.getD k 0) (d.getD (k * 2 * 2) 0) (d.getD (d.length - 1) 0)).sum +
          (d.getD (d.length - 2) 0 / 2 * (t.data.getD P 0 - t.data.getD 0 0) -
            1 / 2 * ∑ i ∈ Finset.range P, (∑ l ∈ Finset.range 3, c.col.K.getD l 0 * (w i l).getD 0 0 ^ 2) *
              (t.data.getD (i + 1) 0 - t.data.getD i 0))) ∧
        (0 < d.getD (d.length - 1) 0 → DerivativesRight q.prob d) ∧ (AboveBounds (duffingLower d.length) d → DerivativesRight q.prob d) ∧
        ∃ cv, q.prob.constr d = .ok cv ∧ cv.length = P * (2 * 2) ∧
        ((∀ a ∈ cv, a = 0) ↔ ∃ z, CollocationPath t.data c.col.points
          (fun i l => [d.getD ((i * 2 + l) * 2 + 1) 0, (functions.f (rowAt d 0 2 (i * 2 + l)) (rowAt ua.data 0 1 (i * 2 + l)) p).getD 1 0 +
            0.1 * (w i l).getD 0 0])
          (fun i l => rowAt d 0 2 (i * 2 + l)) P 2 2 z) := by
  have hdec : DecisionOK duffingVars ["x", "p", "xp", "wc"] ["y", "u", "up", "piece_len", "G", "penweight"] [] := by unfold DecisionOK; decide
  obtain ⟨c, h1, h2, m, h3, m1, -, m3, -, m5, -, h4⟩ := C70_jme_expr_at (duffing jt) (total jt) (DL := fun _ _ _ p => 0 < p.getD 4 0) (definedL jt)
    functions (xn := ["x1", "x2"]) (un := ["u1"]) (pn := pn) (yn := ["x1_meas"]) (N := 2) (nw := 1) (denotes jt) rfl (by decide) hjt vars_ok rfl rfl
    rfl hdec hi duffingG ⟨rfl, rfl⟩ none (fun h => by cases h)
  refine ⟨c, h1, m, h3, m1, m3, m5, fun t y u ua P hin hu => ?_⟩
  obtain ⟨q, rows, q1, qr, q2, q3⟩ := h4 t y u ua P hin hu
  obtain ⟨c', k1, k2⟩ := C72_jme arith_ok (duffing jt) functions.withDiv (xn := ["x1", "x2"]) (un := ["u1"]) (pn := pn) (yn := ["x1_meas"]) (N := 2)
    (nw := 1) (denotes_withDiv (total jt) (denotes jt)) rfl (by decide) hjt vars_ok rfl rfl rfl hdec hi duffingG ⟨rfl, rfl⟩ none (fun h => by cases h)
  obtain rfl : c = c' := Except.ok.inj (h1.symm.trans k1)
  obtain ⟨m', k3, k4⟩ := k2 (exprCode (shapeOf c.vars)) fun _ g _ => C66_expr_code _ g
  obtain rfl : m = m' := Except.ok.inj (h3.symm.trans k3)
  obtain ⟨q', k5, k6⟩ := k4 t y u ua P hin hu
  obtain rfl : q = q' := Except.ok.inj (q1.symm.trans k5)
  have q2' : q.prob.ndec = (P * 2 + 1) * 2 + P * 2 + 5 := by rw [q2, Nat.mul_one]; rfl
  refine ⟨q, rows, q1, qr, q2', fun d hd => ?_⟩
  intro p w
  have hlen : d.length = (P * 2 + 1) * 2 + P * 2 + 5 := hd.trans q2'
  have htl : t.data.length = P + 1 := by rw [hin.twf, hin.tshape]; simp
  have hK : ∑ l ∈ Finset.range 3, c.col.K.getD l 0 = 1 := by
    obtain ⟨col, e1, -, -, e3⟩ := C63_weights 3 (by decide)
    obtain rfl : c.col = col := Except.ok.inj (h2.symm.trans e1)
    obtain ⟨col, e1, e2, -⟩ := C25_exact 3 (by decide)
    obtain rfl : c.col = col := Except.ok.inj (h2.symm.trans e1)
    rwa [show c.col.n = 3 by omega] at e3
  have hp : jmeP P 2 2 1 5 d = p := by unfold jmeP; rw [Nat.mul_one]
  have hw : ∀ i, noiseAt jt (jmeW P 2 2 1 d i) 2 1 = w i := by
    intro i
    change _ = noiseAt jt (fun k => [d.getD ((P * 2 + 1) * 2 + (i * 2 + k)) 0]) 2 1
    congr 1
    funext k
    change [d.getD ((P * 2 + 1) * 2 + ((i * 2 + k) * 1 + 0)) 0] = _
    rw [Nat.mul_one]
    rfl
  have hp3 : p.getD 3 0 = d.getD (d.length - 2) 0 := by rw [hlen]; rfl
  have hp4 : p.getD 4 0 = d.getD (d.length - 1) 0 := by rw [hlen]; rfl
  obtain ⟨r1, r2, r3⟩ := q3 d hd
  have hder : 0 < d.getD (d.length - 1) 0 → DerivativesRight q.prob d := fun a => r3 fun _ _ => by
    change 0 < (jmeP P 2 2 1 5 d).getD 4 0
    rw [hp, hp4]
    exact a
  refine ⟨?_, hder, fun hb => hder ?_, ?_⟩
  · rw [r1]
    refine congrArg Except.ok ?_
    change logLikelihood functions rows y.arr.data ua.data 2 2 1 1 (jmeP P 2 2 1 5 d) d + (∑ i ∈ Finset.range P, tubeDensity true
      (fun l => functions.withDiv.div (rowAt d 0 2 (i * 2 + l)) (rowAt ua.data 0 1 (i * 2 + l)) (jmeP P 2 2 1 5 d))
      (noiseAt jt (jmeW P 2 2 1 d i) 2 1) c.col.K 2 2 1 ((diff t.data).getD i 0)) + 0 = _
    rw [add_zero, hp]
    congr 1
    · unfold logLikelihood
      congr 1
      refine List.map_congr_left fun k hk => ?_
      change logNormal ((rowAt y.arr.data 0 1 k).getD 0 0) ((rowAt d 0 2 (k * 2)).getD 0 0) (p.getD 4 0) = _
      rw [hp4]
      change logNormal (y.arr.data.getD (0 + (k * 1 + 0)) 0) (d.getD (0 + (k * 2 * 2 + 0)) 0) _ = _
      simp only [Nat.zero_add, Nat.add_zero, Nat.mul_one]
    · rw [Finset.sum_congr rfl fun i hi => by
        rw [hw, tube_eq (fun l => rowAt d 0 2 (i * 2 + l)) (fun l => by simp [rowAt]) (fun l => rowAt ua.data 0 1 (i * 2 + l)) p _ _ hK,
          diff_getD (by have := Finset.mem_range.1 hi; omega)]]
      rw [Finset.sum_sub_distrib, ← Finset.mul_sum, ← Finset.mul_sum, Finset.sum_range_sub (fun i => t.data.getD i 0), hp3]
  · have := hb (d.length - 1) 1e-5 (by rw [duffingLower, List.getElem?_set_self (by simp; omega)])
    linarith
  · obtain ⟨cv, e1, e2, e3⟩ := k6 d hd
    refine ⟨cv, e1, e2, e3.trans ?_⟩
    refine exists_congr fun z => ?_
    refine iff_of_eq ?_
    congr 1
    funext i l
    change noisyRhs (functions.f (rowAt d 0 2 (i * 2 + l)) (rowAt ua.data 0 1 (i * 2 + l)) (jmeP P 2 2 1 5 d))
      (noiseAt jt (jmeW P 2 2 1 d i) 2 1 l) (rowAt duffingG.data 0 1) 2 1 = _
    rw [hp, hw, rhs_eq]
    change [d.getD (0 + ((i * 2 + l) * 2 + 1)) 0, _] = _
    rw [Nat.zero_add]

/-- Two pieces, the second of three measurements missing: 19 decision variables. -/
example : ∃ c, symjmeInit SExpr.arith (duffing [[1, 0], [1 / 2, 1 / 2], [0, 1]]) PendulumId.jiter duffingVars [] = .ok c ∧
    ∃ m, symjmeGen (exprCode (shapeOf c.vars)) (duffing [[1, 0], [1 / 2, 1 / 2], [0, 1]]) duffingG none c = .ok m ∧
    ∃ q, jmeProblem m PendulumId.t PendulumId.y (.callable fun _ => .ok (.array PendulumId.ua)) = .ok q ∧ q.prob.ndec = 19 := by
  obtain ⟨c, h1, m, h2, m1, m3, m5, h3⟩ := C73_duffing [[1, 0], [1 / 2, 1 / 2], [0, 1]]
    ⟨rfl, by intro r hr; simp only [List.mem_cons, List.not_mem_nil, or_false] at hr; rcases hr with rfl | rfl | rfl <;> rfl⟩ PendulumId.jiter_ok
  obtain ⟨q, rows, q1, -, q2, -⟩ := h3 PendulumId.t PendulumId.y _ PendulumId.ua 2 (PendulumId.input m1 m5) (PendulumId.inputs m1 m5 m3)
  exact ⟨c, h1, m, h2, q, q1, q2⟩

end Ceacoest
