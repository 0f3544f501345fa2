import Verif.Lemmas.Gradient

/-!
# C08 – C13: sparse arrays and derivatives of a problem

`S` and `R` give, for every function object of the problem, the mathematics behind it and how it is registered; the
hypotheses `FunOK`, `SparseOK`, `GradOK`, ... (`Verif.Spec.Contract`) are the contract of the generated code.
-/

namespace Ceacoest
open Spec

variable {p : Problem ℝ} {calls : List (Problem.Call ℝ)} (S : OptFun ℝ → Sym) (R : OptFun ℝ → Reg)

theorem args_base (hp : ProblemOK p calls) {o : OptFun ℝ} {s : Sym} {r : Reg} (ho : FunOK p o s r) {dvec : List ℝ}
    (hl : dvec.length = p.ndec) {vs : Dict String (NDArray ℝ)} (hvs : p.variables dvec = .ok vs) {e : Nat}
    (he : e < r.E.prod) : baseArgs o r vs e = argsOf p o r e dvec := by
  obtain ⟨_, -, -, -, h⟩ := ho.vals hp dvec hl vs hvs
  exact (h e he).1

/-! ### C08 -/

/-- **C08** (Jacobian). -/
theorem C08_constr_jac (hp : ProblemOK p calls) (h : ∀ c ∈ p.constraints, FunOK p c.fn (S c.fn) (R c.fn) ∧
      SparseOK c.fn (R c.fn) c.fn.fn.jac (S c.fn).jac 1) :
    ∃ nnz di ci, p.constrJacNnz = .ok nnz ∧ p.constrJacInd = .ok (di, ci) ∧ di.length = nnz ∧ ci.length = nnz ∧
      (∀ i ∈ di, i < p.ndec) ∧ (∀ i ∈ ci, i < p.ncons) ∧
      ∀ dvec : List ℝ, dvec.length = p.ndec → ∃ val, p.constrJacVal dvec = .ok val ∧ val.length = nnz := by
  obtain ⟨h1, h2, h3⟩ := jac_form S R hp h
  refine ⟨_, _, _, h1, h2, spread_length _, spread_length _, fun i hi => ?_, fun i hi => ?_,
    fun dvec hl => ⟨_, h3 dvec hl, spread_length _⟩⟩
  · obtain ⟨c, hc, wd, hwd, e, he, n, hn, rfl⟩ := mem_spread hi
    obtain ⟨ho, hs⟩ := h c hc
    obtain ⟨hj, hv, -, -, hcol, -⟩ := hs.one hp ho (wrt := wd.1) (d := wd.2) hwd
    exact ho.pos_lt hp hj hv he (hcol n hn).1
  · obtain ⟨c, hc, wd, hwd, e, he, n, hn, rfl⟩ := mem_spread hi
    obtain ⟨ho, hs⟩ := h c hc
    obtain ⟨hj, hv, -, -, hcol, -⟩ := hs.one hp ho (wrt := wd.1) (d := wd.2) hwd
    exact (cpos_lt S R hp hc ho he (hcol n hn).2).2

/-- **C08** (objective Hessian). -/
theorem C08_obj_hess (hp : ProblemOK p calls) (h : ∀ o ∈ p.objectives, FunOK p o (S o) (R o) ∧
      SparseOK o (R o) o.fn.hess (S o).hess 2) :
    ∃ nnz r c, p.objHessNnz = .ok nnz ∧ p.objHessInd = .ok (r, c) ∧ r.length = nnz ∧ c.length = nnz ∧
      (∀ i ∈ r, i < p.ndec) ∧ (∀ i ∈ c, i < p.ndec) ∧
      ∀ dvec : List ℝ, dvec.length = p.ndec → ∃ val, p.objHessVal dvec = .ok val ∧ val.length = nnz := by
  obtain ⟨h1, h2, h3⟩ := ohess_form S R hp h
  refine ⟨_, _, _, h1, h2, spread_length _, spread_length _, fun i hi => ?_, fun i hi => ?_,
    fun dvec hl => ⟨_, h3 dvec hl, spread_length _⟩⟩
  all_goals
    obtain ⟨o, hmem, wd, hwd, e, he, n, hn, rfl⟩ := mem_spread hi
    obtain ⟨ho, hs⟩ := h o hmem
    obtain ⟨hj, hv, hj', hv', -, -, hcol, -⟩ := hs.two hp ho (wrt := wd.1) (d := wd.2) hwd
  · exact ho.pos_lt hp hj hv he (hcol n hn).1
  · exact ho.pos_lt hp hj' hv' he (hcol n hn).2.1

/-- **C08** (constraint Hessians). -/
theorem C08_constr_hess (hp : ProblemOK p calls) (h : ∀ c ∈ p.constraints, FunOK p c.fn (S c.fn) (R c.fn) ∧
      SparseOK c.fn (R c.fn) c.fn.fn.hess (S c.fn).hess 2) :
    ∃ nnz r c q, p.constrHessNnz = .ok nnz ∧ p.constrHessInd = .ok (r, c, q) ∧ r.length = nnz ∧ c.length = nnz ∧
      q.length = nnz ∧ (∀ i ∈ r, i < p.ndec) ∧ (∀ i ∈ c, i < p.ndec) ∧ (∀ i ∈ q, i < p.ncons) ∧
      ∀ dvec : List ℝ, dvec.length = p.ndec → ∃ val, p.constrHessVal dvec = .ok val ∧ val.length = nnz := by
  obtain ⟨h1, h2, h3⟩ := chess_form S R hp h
  refine ⟨_, _, _, _, h1, h2, spread_length _, spread_length _, spread_length _, fun i hi => ?_, fun i hi => ?_,
    fun i hi => ?_, fun dvec hl => ⟨_, h3 dvec hl, spread_length _⟩⟩
  all_goals
    obtain ⟨c, hc, wd, hwd, e, he, n, hn, rfl⟩ := mem_spread hi
    obtain ⟨ho, hs⟩ := h c hc
    obtain ⟨hj, hv, hj', hv', -, -, hcol, -⟩ := hs.two hp ho (wrt := wd.1) (d := wd.2) hwd
  · exact ho.pos_lt hp hj hv he (hcol n hn).1
  · exact ho.pos_lt hp hj' hv' he (hcol n hn).2.1
  · exact (cpos_lt S R hp hc ho he (hcol n hn).2.2).2

theorem lag_form (hp : ProblemOK p calls)
    (h : ∀ o ∈ p.objectives, FunOK p o (S o) (R o) ∧ SparseOK o (R o) o.fn.hess (S o).hess 2)
    (h' : ∀ c ∈ p.constraints, FunOK p c.fn (S c.fn) (R c.fn) ∧ SparseOK c.fn (R c.fn) c.fn.fn.hess (S c.fn).hess 2)
    (dvec : List ℝ) (hl : dvec.length = p.ndec) (σ : ℝ) (lam : List ℝ) (hlam : lam.length = p.ncons) :
    p.lagHessVal dvec σ lam = .ok
      ((spread p.objectives (fun o => o.fn.hess) R fun o wd e n => (S o).hess wd.1 (argsOf p o (R o) e dvec) n * σ) ++
       (spread p.constraints (fun c => c.fn.fn.hess) (fun c => R c.fn) fun c wd e n =>
        (S c.fn).hess wd.1 (argsOf p c.fn (R c.fn) e dvec) n * lam.getD (cposOf 2 c wd e n) 0)) := by
  obtain ⟨-, -, h3⟩ := ohess_form S R hp h
  obtain ⟨-, g2, g3⟩ := chess_form S R hp h'
  unfold Problem.lagHessVal
  rw [pyAssert_true hlam, g2, h3 dvec hl, g3 dvec hl]
  simp only [py_bind_ok]
  rw [readAt_eq 0]
  · simp only [py_bind_ok, py_pure]
    congr 2
    · rw [spread_map]
    · rw [spread_map]
      set T := spread p.constraints (fun c => c.fn.fn.hess) (fun c => R c.fn) fun c wd e n =>
        ((S c.fn).hess wd.1 (argsOf p c.fn (R c.fn) e dvec) n, lam.getD (cposOf 2 c wd e n) 0) with hT
      have e1 : (spread p.constraints (fun c => c.fn.fn.hess) (fun c => R c.fn) fun c wd e n =>
        (S c.fn).hess wd.1 (argsOf p c.fn (R c.fn) e dvec) n) = T.map Prod.fst := by rw [hT, spread_map]
      have e2 : (spread p.constraints (fun c => c.fn.fn.hess) (fun c => R c.fn) fun c wd e n =>
        lam.getD (cposOf 2 c wd e n) 0) = T.map Prod.snd := by rw [hT, spread_map]
      have e3 : (spread p.constraints (fun c => c.fn.fn.hess) (fun c => R c.fn) fun c wd e n =>
        (S c.fn).hess wd.1 (argsOf p c.fn (R c.fn) e dvec) n * lam.getD (cposOf 2 c wd e n) 0) =
          T.map fun t => t.1 * t.2 := by rw [hT, spread_map]
      rw [e1, e2, e3, List.zipWith_map]
      exact List.zipWith_self
  · intro i hi
    obtain ⟨c, hc, wd, hwd, e, he, n, hn, rfl⟩ := mem_spread hi
    obtain ⟨ho, hs⟩ := h' c hc
    obtain ⟨-, -, -, -, -, -, hcol, -⟩ := hs.two hp ho (wrt := wd.1) (d := wd.2) hwd
    rw [hlam]
    exact (cpos_lt S R hp hc ho he (hcol n hn).2.2).2

/-- **C08** (Lagrangian Hessian): the objective entries come first, followed by those of the constraints. -/
theorem C08_lag_hess (hp : ProblemOK p calls)
    (h : ∀ o ∈ p.objectives, FunOK p o (S o) (R o) ∧ SparseOK o (R o) o.fn.hess (S o).hess 2)
    (h' : ∀ c ∈ p.constraints, FunOK p c.fn (S c.fn) (R c.fn) ∧ SparseOK c.fn (R c.fn) c.fn.fn.hess (S c.fn).hess 2) :
    ∃ nnz r c, p.lagHessNnz = .ok nnz ∧ p.lagHessInd = .ok (r, c) ∧ r.length = nnz ∧ c.length = nnz ∧
      (∀ i ∈ r, i < p.ndec) ∧ (∀ i ∈ c, i < p.ndec) ∧
      ∀ (dvec : List ℝ) (σ : ℝ) (lam : List ℝ), dvec.length = p.ndec → lam.length = p.ncons →
        ∃ val, p.lagHessVal dvec σ lam = .ok val ∧ val.length = nnz := by
  obtain ⟨n1, r1, c1, a1, a2, a3, a4, a5, a6, a7⟩ := C08_obj_hess S R hp h
  obtain ⟨n2, r2, c2, q2, b1, b2, b3, b4, b5, b6, b7, b8, b9⟩ := C08_constr_hess S R hp h'
  refine ⟨n1 + n2, r1 ++ r2, c1 ++ c2, ?_, ?_, by simp [a3, b3], by simp [a4, b4], ?_, ?_, ?_⟩
  · unfold Problem.lagHessNnz
    rw [a1, b1]
    rfl
  · unfold Problem.lagHessInd
    rw [a2, b2]
    rfl
  · intro i hi
    rcases List.mem_append.1 hi with hi | hi
    · exact a5 i hi
    · exact b6 i hi
  · intro i hi
    rcases List.mem_append.1 hi with hi | hi
    · exact a6 i hi
    · exact b7 i hi
  · intro dvec σ lam hl hlam
    refine ⟨_, lag_form S R hp h h' dvec hl σ lam hlam, ?_⟩
    obtain ⟨h1, -, -⟩ := ohess_form S R hp h
    obtain ⟨g1, -, -⟩ := chess_form S R hp h'
    rw [h1] at a1
    rw [g1] at b1
    cases a1
    cases b1
    rw [List.length_append, spread_length, spread_length]

/-! ### C09 -/

/-- **C09.** `obj` is defined on every decision vector, and `obj_grad(dvec)` has length `ndec` and is its gradient. -/
theorem C09_obj_grad (hp : ProblemOK p calls)
    (h : ∀ o ∈ p.objectives, FunOK p o (S o) (R o) ∧ GradOK o (R o) (S o).grad)
    (dvec : List ℝ) (hl : dvec.length = p.ndec) (vs : Dict String (NDArray ℝ)) (hvs : p.variables dvec = .ok vs)
    (hd : ∀ o ∈ p.objectives, ∀ e < (R o).E.prod, GradRight o (S o) (R o) (baseArgs o (R o) vs e)) :
    ∃ (f : List ℝ → ℝ) (g : List ℝ), (∀ d : List ℝ, d.length = p.ndec → p.obj d = .ok (f d)) ∧
      p.objGrad dvec = .ok g ∧ g.length = p.ndec ∧
      ∀ i < p.ndec, HasDerivAt (fun t => f (dvec.set i t)) (g.getD i 0) (dvec.getD i 0) := by
  obtain ⟨g, h1, h2, h3⟩ := objGrad_form S R hp h dvec hl
  refine ⟨_, g, fun d hd => obj_form S R hp (fun o ho => (h o ho).1) d hd, h1, h2, fun i hi => ?_⟩
  rw [h3 i hi]
  refine obj_deriv S R hp h dvec hl (fun o ho e he => ?_) i hi
  rw [← args_base hp (h o ho).1 hl hvs he]
  exact hd o ho e he

/-! ### C10 -/

/-- **C10.** `constr` is defined on every decision vector; summing the values of the triplets `(i, q)` of
`constr_jac_ind`, `constr_jac_val(dvec)` gives the partial derivative of `constr` number `q` with respect to `dvec[i]`. -/
theorem C10_constr_jac (hp : ProblemOK p calls)
    (h : ∀ c ∈ p.constraints, FunOK p c.fn (S c.fn) (R c.fn) ∧ SparseOK c.fn (R c.fn) c.fn.fn.jac (S c.fn).jac 1)
    (dvec : List ℝ) (hl : dvec.length = p.ndec) (vs : Dict String (NDArray ℝ)) (hvs : p.variables dvec = .ok vs)
    (hd : ∀ c ∈ p.constraints, ∀ e < (R c.fn).E.prod,
      JacRight c.fn (S c.fn) (R c.fn) (baseArgs c.fn (R c.fn) vs e)) :
    ∃ (f : List ℝ → List ℝ) (di ci : List Nat) (val : List ℝ),
      (∀ d : List ℝ, d.length = p.ndec → p.constr d = .ok (f d) ∧ (f d).length = p.ncons) ∧
      p.constrJacInd = .ok (di, ci) ∧ p.constrJacVal dvec = .ok val ∧
      ∀ i < p.ndec, ∀ q < p.ncons, HasDerivAt (fun t => (f (dvec.set i t)).getD q 0)
        (assemble val.length (fun n => di.getD n 0 = i ∧ ci.getD n 0 = q) fun n => val.getD n 0) (dvec.getD i 0) := by
  classical
  obtain ⟨-, h2, h3⟩ := jac_form S R hp h
  have hc := fun d (hd : d.length = p.ndec) => constr_form S R hp (fun c hc => (h c hc).1) d hd
  choose! f hf1 hf2 hf3 using hc
  refine ⟨f, _, _, _, fun d hd => ⟨hf1 d hd, hf2 d hd⟩, h2, h3 dvec hl, fun i hi q hq => ?_⟩
  rw [assemble_spread _ _ _ fun a b => a = i ∧ b = q]
  have hset : ∀ t, (dvec.set i t).length = p.ndec := fun t => by simp [hl]
  have hfun : (fun t => (f (dvec.set i t)).getD q 0) = _ := funext fun t => hf3 _ (hset t) q hq
  rw [hfun]
  refine (wsum_deriv1 S R hp p.constraints (·.fn)
    (fun c e r => if e * c.fn.fn.outShape.prod + r + c.offset = q then 1 else 0) h dvec hl
    (fun c hc e he => ?_) i hi).congr_deriv ?_
  · rw [← args_base hp (h c hc).1 hl hvs he]
    exact hd c hc e he
  · refine congrArg _ (List.map_congr_left fun c _ => congrArg _ (List.map_congr_left fun wd _ =>
      Finset.sum_congr rfl fun e _ => Finset.sum_congr rfl fun n _ => ?_))
    unfold cposOf
    split_ifs <;> first | (exfalso; tauto) | simp

/-! ### C11, C12 -/

theorem assemble_append (r1 r2 c1 c2 : List Nat) (v1 v2 : List ℝ) (hit : Nat → Nat → Prop) [∀ a b, Decidable (hit a b)]
    (h1 : r1.length = v1.length) (h2 : c1.length = v1.length) :
    assemble (v1 ++ v2).length (fun n => hit ((r1 ++ r2).getD n 0) ((c1 ++ c2).getD n 0)) (fun n => (v1 ++ v2).getD n 0) =
    assemble v1.length (fun n => hit (r1.getD n 0) (c1.getD n 0)) (fun n => v1.getD n 0) +
    assemble v2.length (fun n => hit (r2.getD n 0) (c2.getD n 0)) (fun n => v2.getD n 0) := by
  unfold assemble
  rw [List.length_append, Finset.sum_range_add]
  congr 1
  · refine Finset.sum_congr rfl fun n hn => ?_
    have hn := Finset.mem_range.1 hn
    simp only [List.getD_eq_getElem?_getD]
    rw [List.getElem?_append_left (by omega), List.getElem?_append_left (by omega),
      List.getElem?_append_left (by omega)]
  · refine Finset.sum_congr rfl fun n _ => ?_
    simp only [List.getD_eq_getElem?_getD]
    rw [List.getElem?_append_right (by omega), List.getElem?_append_right (by omega),
      List.getElem?_append_right (by omega), h1, h2, Nat.add_sub_cancel_left]

/-- The triplet `(r, c)` stands for the entry `(i, j)` of a symmetric matrix of which one triangle is listed. -/
def symHit (i j r c : Nat) : Prop := r = i ∧ c = j ∨ r = j ∧ c = i

instance (i j r c : Nat) : Decidable (symHit i j r c) := inferInstanceAs (Decidable (_ ∨ _))

theorem mul_ite_sym (v : ℝ) (i j a b : Nat) :
    v * (if a = i ∧ b = j ∨ a = j ∧ b = i then 1 else 0) = if symHit i j a b then v else 0 := by
  by_cases h : symHit i j a b
  · rw [if_pos h, if_pos (show a = i ∧ b = j ∨ a = j ∧ b = i from h), mul_one]
  · rw [if_neg h, if_neg (show ¬(a = i ∧ b = j ∨ a = j ∧ b = i) from h), mul_zero]

/-- **C11.** The triplets of `obj_hess_ind`, `obj_hess_val(dvec)`, each standing for `(r, c)` and `(c, r)`, assemble to
the second partial derivatives of `obj`. -/
theorem C11_obj_hess (hp : ProblemOK p calls)
    (h : ∀ o ∈ p.objectives, FunOK p o (S o) (R o) ∧ SparseOK o (R o) o.fn.hess (S o).hess 2)
    (hna : ∀ o ∈ p.objectives, NoAlias p o (R o))
    (dvec : List ℝ) (hl : dvec.length = p.ndec) (vs : Dict String (NDArray ℝ)) (hvs : p.variables dvec = .ok vs)
    (hd : ∀ o ∈ p.objectives, ∀ e < (R o).E.prod, HessRight o (S o) (R o) (baseArgs o (R o) vs e)) :
    ∃ (f : List ℝ → ℝ) (r c : List Nat) (val : List ℝ),
      (∀ d : List ℝ, d.length = p.ndec → p.obj d = .ok (f d)) ∧
      p.objHessInd = .ok (r, c) ∧ p.objHessVal dvec = .ok val ∧
      ∀ i < p.ndec, ∀ j < p.ndec,
        (∀ᶠ s in nhds (dvec.getD i 0),
          DifferentiableAt ℝ (fun t => f ((dvec.set i s).set j t)) ((dvec.set i s).getD j 0)) ∧
        HasDerivAt (fun s => deriv (fun t => f ((dvec.set i s).set j t)) ((dvec.set i s).getD j 0))
          (assemble val.length (fun n => symHit i j (r.getD n 0) (c.getD n 0)) fun n => val.getD n 0) (dvec.getD i 0) := by
  obtain ⟨-, h2, h3⟩ := ohess_form S R hp h
  refine ⟨_, _, _, _, fun d hd => obj_form S R hp (fun o ho => (h o ho).1) d hd, h2, h3 dvec hl, fun i hi j hj => ?_⟩
  rw [assemble_spread _ _ _ fun a b => symHit i j a b]
  obtain ⟨d1, d2⟩ := wsum_deriv2 S R hp p.objectives id (fun _ _ _ => 1) h dvec hl
    (fun o ho e he => by
      have : argsOf p (id o) (R (id o)) e dvec = baseArgs o (R o) vs e := (args_base hp (h o ho).1 hl hvs he).symm
      rw [this]
      exact hd o ho e he) hna i j hi hj
  refine ⟨d2, d1.congr_deriv ?_⟩
  refine congrArg _ (List.map_congr_left fun c _ => congrArg _ (List.map_congr_left fun wd _ =>
    Finset.sum_congr rfl fun e _ => Finset.sum_congr rfl fun n _ => ?_))
  rw [mul_ite_sym, one_mul]
  rfl

/-- **C12.** The triplets of `lag_hess_ind`, `lag_hess_val(dvec, obj_mult, constr_mult)` assemble in the same way to the
second partial derivatives of the Lagrangian `obj_mult * obj + constr_mult · constr`. -/
theorem C12_lag_hess (hp : ProblemOK p calls)
    (h : ∀ o ∈ p.objectives, FunOK p o (S o) (R o) ∧ SparseOK o (R o) o.fn.hess (S o).hess 2)
    (h' : ∀ c ∈ p.constraints, FunOK p c.fn (S c.fn) (R c.fn) ∧ SparseOK c.fn (R c.fn) c.fn.fn.hess (S c.fn).hess 2)
    (hna : ∀ o ∈ p.objectives, NoAlias p o (R o)) (hna' : ∀ c ∈ p.constraints, NoAlias p c.fn (R c.fn))
    (dvec : List ℝ) (hl : dvec.length = p.ndec) (vs : Dict String (NDArray ℝ)) (hvs : p.variables dvec = .ok vs)
    (hd : ∀ o ∈ p.objectives, ∀ e < (R o).E.prod, HessRight o (S o) (R o) (baseArgs o (R o) vs e))
    (hd' : ∀ c ∈ p.constraints, ∀ e < (R c.fn).E.prod,
      HessRight c.fn (S c.fn) (R c.fn) (baseArgs c.fn (R c.fn) vs e))
    (σ : ℝ) (lam : List ℝ) (hlam : lam.length = p.ncons) :
    ∃ (L : List ℝ → ℝ) (r c : List Nat) (val : List ℝ),
      (∀ d : List ℝ, d.length = p.ndec → ∃ o cv, p.obj d = .ok o ∧ p.constr d = .ok cv ∧ cv.length = p.ncons ∧
        L d = σ * o + ∑ q ∈ Finset.range p.ncons, lam.getD q 0 * cv.getD q 0) ∧
      p.lagHessInd = .ok (r, c) ∧ p.lagHessVal dvec σ lam = .ok val ∧
      ∀ i < p.ndec, ∀ j < p.ndec,
        (∀ᶠ s in nhds (dvec.getD i 0),
          DifferentiableAt ℝ (fun t => L ((dvec.set i s).set j t)) ((dvec.set i s).getD j 0)) ∧
        HasDerivAt (fun s => deriv (fun t => L ((dvec.set i s).set j t)) ((dvec.set i s).getD j 0))
          (assemble val.length (fun n => symHit i j (r.getD n 0) (c.getD n 0)) fun n => val.getD n 0) (dvec.getD i 0) := by
  classical
  obtain ⟨-, h2, h3⟩ := ohess_form S R hp h
  obtain ⟨-, g2, g3⟩ := chess_form S R hp h'
  refine ⟨fun d => wsum p p.objectives id S R (fun _ _ _ => σ) d +
      wsum p p.constraints (·.fn) S R (fun c e r => lam.getD (e * c.fn.fn.outShape.prod + r + c.offset) 0) d,
    _, _, _, fun d hd => ?_, by unfold Problem.lagHessInd; rw [h2, g2]; rfl, lag_form S R hp h h' dvec hl σ lam hlam,
    fun i hi j hj => ?_⟩
  · obtain ⟨cv, c1, c2, c3⟩ := constr_form S R hp (fun c hc => (h' c hc).1) d hd
    refine ⟨_, cv, obj_form S R hp (fun o ho => (h o ho).1) d hd, c1, c2, ?_⟩
    beta_reduce
    congr 1
    · unfold wsum
      rw [list_mul_sum]
      refine congrArg _ (List.map_congr_left fun o _ => ?_)
      simp only [Finset.mul_sum, one_mul]
    · rw [Finset.sum_congr rfl fun q hq => by rw [c3 q (Finset.mem_range.1 hq)]]
      unfold wsum
      simp only [list_mul_sum]
      rw [list_sum_finset]
      refine congrArg _ (List.map_congr_left fun c hc => ?_)
      simp only [Finset.mul_sum]
      symm
      rw [Finset.sum_comm]
      refine Finset.sum_congr rfl fun e he => ?_
      rw [Finset.sum_comm]
      refine Finset.sum_congr rfl fun r hr => ?_
      rw [Finset.sum_eq_single (e * c.fn.fn.outShape.prod + r + c.offset)]
      · simp
      · intro q _ hq
        rw [if_neg (Ne.symm hq)]
        ring
      · intro hn
        exact absurd (Finset.mem_range.2
          (cpos_lt S R hp hc (h' c hc).1 (Finset.mem_range.1 he) (Finset.mem_range.1 hr)).2) hn
  · rw [assemble_append _ _ _ _ _ _ (fun a b => symHit i j a b) (by simp only [spread_length])
      (by simp only [spread_length]), assemble_spread _ _ _ fun a b => symHit i j a b,
      assemble_spread _ _ _ fun a b => symHit i j a b]
    obtain ⟨d1, d2⟩ := wsum_deriv2 S R hp p.objectives id (fun _ _ _ => σ) h dvec hl
      (fun o ho e he => by
        have : argsOf p (id o) (R (id o)) e dvec = baseArgs o (R o) vs e := (args_base hp (h o ho).1 hl hvs he).symm
        rw [this]
        exact hd o ho e he) hna i j hi hj
    obtain ⟨e1, e2⟩ := wsum_deriv2 S R hp p.constraints (·.fn)
      (fun c e r => lam.getD (e * c.fn.fn.outShape.prod + r + c.offset) 0) h' dvec hl
      (fun c hc e he => by
        rw [← args_base hp (h' c hc).1 hl hvs he]
        exact hd' c hc e he) hna' i j hi hj
    refine ⟨?_, ?_⟩
    · filter_upwards [d2, e2] with s a b using a.add b
    · refine HasDerivAt.congr_of_eventuallyEq ?_ (f₁ := _) (f := fun s =>
        deriv (fun t => wsum p p.objectives id S R (fun _ _ _ => σ) ((dvec.set i s).set j t)) ((dvec.set i s).getD j 0) +
        deriv (fun t => wsum p p.constraints (·.fn) S R
          (fun c e r => lam.getD (e * c.fn.fn.outShape.prod + r + c.offset) 0) ((dvec.set i s).set j t))
          ((dvec.set i s).getD j 0)) ?_
      · refine (d1.add e1).congr_deriv ?_
        congr 1
        · refine congrArg _ (List.map_congr_left fun c _ => congrArg _ (List.map_congr_left fun wd _ =>
            Finset.sum_congr rfl fun e _ => Finset.sum_congr rfl fun n _ => ?_))
          rw [mul_ite_sym, mul_comm σ]
          rfl
        · refine congrArg _ (List.map_congr_left fun c _ => congrArg _ (List.map_congr_left fun wd _ =>
            Finset.sum_congr rfl fun e _ => Finset.sum_congr rfl fun n _ => ?_))
          rw [mul_ite_sym, mul_comm (lam.getD _ _)]
          rfl
      · filter_upwards [d2, e2] with s a b using deriv_fun_add a b

/-- **C12** (rejection). A multiplier vector of another length is rejected. -/
theorem C12_wrong_length (p : Problem ℝ) (dvec : List ℝ) (σ : ℝ) (lam : List ℝ) (h : lam.length ≠ p.ncons) :
    p.lagHessVal dvec σ lam = .error .assertionError := by
  unfold Problem.lagHessVal
  rw [pyAssert_false h]
  rfl

/-! ### C13 -/

/-- **C13.** The index arrays handed to the solver are (constraint, decision), entry by entry in the order of the values
of `constr_jac_val`; each is in range. -/
theorem C13_ipopt_jac (hp : ProblemOK p calls) (h : ∀ c ∈ p.constraints, FunOK p c.fn (S c.fn) (R c.fn) ∧
      SparseOK c.fn (R c.fn) c.fn.fn.jac (S c.fn).jac 1)
    (dvec : List ℝ) (hl : dvec.length = p.ndec) (vs : Dict String (NDArray ℝ)) (hvs : p.variables dvec = .ok vs)
    (hd : ∀ c ∈ p.constraints, ∀ e < (R c.fn).E.prod,
      JacRight c.fn (S c.fn) (R c.fn) (baseArgs c.fn (R c.fn) vs e)) :
    ∃ (f : List ℝ → List ℝ) (row col : List Nat) (val : List ℝ),
      (∀ d : List ℝ, d.length = p.ndec → p.constr d = .ok (f d)) ∧
      p.ipoptJacInd = .ok (row, col) ∧ p.constrJacVal dvec = .ok val ∧ row.length = val.length ∧ col.length = val.length ∧
      (∀ q ∈ row, q < p.ncons) ∧ (∀ i ∈ col, i < p.ndec) ∧
      ∀ q < p.ncons, ∀ i < p.ndec, HasDerivAt (fun t => (f (dvec.set i t)).getD q 0)
        (assemble val.length (fun n => row.getD n 0 = q ∧ col.getD n 0 = i) fun n => val.getD n 0) (dvec.getD i 0) := by
  obtain ⟨nnz, di, ci, -, h2, h3, h4, h5, h6, h7⟩ := C08_constr_jac S R hp h
  obtain ⟨f, di', ci', val, g1, g2, g3, g4⟩ := C10_constr_jac S R hp h dvec hl vs hvs hd
  rw [h2] at g2
  cases g2
  obtain ⟨val', v1, v2⟩ := h7 dvec hl
  rw [g3] at v1
  cases v1
  refine ⟨f, ci, di, val, fun d hd => (g1 d hd).1, ?_, g3, by rw [h4, v2], by rw [h3, v2], h6, h5, fun q hq i hi => ?_⟩
  · unfold Problem.ipoptJacInd
    rw [h2]
    rfl
  · have := g4 i hi q hq
    simpa only [and_comm] using this

end Ceacoest
