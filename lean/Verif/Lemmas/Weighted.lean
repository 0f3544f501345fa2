import Verif.Lemmas.Triplets
import Mathlib.Analysis.Calculus.Deriv.Add
import Mathlib.Analysis.Calculus.Deriv.Mul

/-! Helper lemmas: derivatives of weighted sums of all function evaluations of a problem. -/

namespace Ceacoest
open Spec

theorem sum_range_mul (a b : Nat) (f : Nat → ℝ) :
    ∑ i ∈ Finset.range (a * b), f i = ∑ e ∈ Finset.range a, ∑ r ∈ Finset.range b, f (e * b + r) := by
  induction a with
  | zero => simp
  | succ a ih => rw [Finset.sum_range_succ, Nat.succ_mul, Finset.sum_range_add, ih]

/-- Weighted sum of all outputs of all evaluations. -/
noncomputable def wsum {C : Type} (p : Problem ℝ) (cs : List C) (fn : C → OptFun ℝ) (S : OptFun ℝ → Sym)
    (R : OptFun ℝ → Reg) (w : C → Nat → Nat → ℝ) (d : List ℝ) : ℝ :=
  (cs.map fun c => ∑ e ∈ Finset.range (R (fn c)).E.prod, ∑ r ∈ Finset.range (fn c).fn.outShape.prod,
    w c e r * (S (fn c)).F (argsOf p (fn c) (R (fn c)) e d) r).sum

section
variable {p : Problem ℝ} {calls : List (Problem.Call ℝ)} (S : OptFun ℝ → Sym) (R : OptFun ℝ → Reg)
  (hp : ProblemOK p calls)
include hp
set_option linter.unusedSectionVars false

/-- The value of a function. -/
theorem call_form {o : OptFun ℝ} (ho : FunOK p o (S o) (R o)) (d : List ℝ) (hl : d.length = p.ndec)
    (vs : Dict String (NDArray ℝ)) (hvs : p.variables d = .ok vs) :
    o.call vs = .ok ⟨o.shape, (List.range (R o).E.prod).flatMap fun e =>
      (List.range o.fn.outShape.prod).map fun r => (S o).F (argsOf p o (R o) e d) r⟩ := by
  obtain ⟨vals, h0, -⟩ := ho.vals hp d hl vs hvs
  obtain ⟨h2, h3⟩ := ho.vec hp d hl vals vs hvs h0 ho.method
  unfold OptFun.call
  rw [h0]
  simp only [py_bind_ok, py_pure]
  congr 1
  cases hx : o.fn.method vals with
  | mk sh dat =>
    rw [hx] at h2 h3
    simp only at h2 h3
    subst h3
    rw [h2, ← ho.shape]

theorem call_length {o : OptFun ℝ} (ho : FunOK p o (S o) (R o)) (f : Nat → Nat → ℝ) :
    ((List.range (R o).E.prod).flatMap fun e => (List.range o.fn.outShape.prod).map fun r => f e r).length =
      o.shape.prod := by
  rw [range_flatMap_map (R o).E.prod o.fn.outShape.prod f, ho.shape]
  simp

theorem flat_sum (a b : Nat) (f : Nat → Nat → ℝ) :
    ((List.range a).flatMap fun e => (List.range b).map fun r => f e r).sum =
      ∑ e ∈ Finset.range a, ∑ r ∈ Finset.range b, f e r := by
  have h1 : ∀ (g : Nat → ℝ) (N : Nat), ((List.range N).map g).sum = ∑ n ∈ Finset.range N, g n := by
    intro g N
    induction N with
    | zero => simp
    | succ N ih => rw [List.range_succ, Finset.sum_range_succ, ← ih]; simp
  rw [list_sum_flatMap, ← h1]
  refine congrArg _ (List.map_congr_left fun e _ => h1 _ _)

/-- `obj` is the sum of all outputs. -/
theorem obj_form (h : ∀ o ∈ p.objectives, FunOK p o (S o) (R o)) (d : List ℝ) (hl : d.length = p.ndec) :
    p.obj d = .ok (wsum p p.objectives id S R (fun _ _ _ => 1) d) := by
  obtain ⟨vs, hvs, -, -⟩ := variables_eq hp d hl
  unfold Problem.obj
  rw [hvs]
  simp only [py_bind_ok]
  have : ∀ (l : List (OptFun ℝ)) (a : ℝ), (∀ o ∈ l, o ∈ p.objectives) →
      l.foldlM (fun acc o => do return acc + (← o.call vs).data.foldl (· + ·) 0) a =
        (.ok (a + wsum p l id S R (fun _ _ _ => 1) d) : Py ℝ) := by
    intro l
    induction l with
    | nil => intro a _; simp [wsum]
    | cons o l ih =>
      intro a hm
      have ho := h o (hm o (by simp))
      rw [List.foldlM_cons, call_form S R hp ho d hl vs hvs]
      refine (ih _ fun o' h' => hm o' (by simp [h'])).trans ?_
      congr 1
      have e1 : ∀ (l : List ℝ) (a : ℝ), l.foldl (· + ·) a = a + l.sum := by
        intro l
        induction l with
        | nil => simp
        | cons x l ih => intro a; rw [List.foldl_cons, ih, List.sum_cons]; ring
      simp only [e1]
      rw [flat_sum (p := p) hp]
      simp only [wsum, id, List.map_cons, List.sum_cons, one_mul, zero_add]
      ring
  simpa using this p.objectives 0 fun _ h => h

/-- `constr` concatenates all outputs. -/
theorem constr_form (h : ∀ c ∈ p.constraints, FunOK p c.fn (S c.fn) (R c.fn)) (d : List ℝ) (hl : d.length = p.ndec) :
    ∃ cvec, p.constr d = .ok cvec ∧ cvec.length = p.ncons ∧ ∀ q < p.ncons, cvec.getD q 0 =
      wsum p p.constraints (·.fn) S R (fun c e r => if e * c.fn.fn.outShape.prod + r + c.offset = q then 1 else 0) d := by
  obtain ⟨vs, hvs, -, -⟩ := variables_eq hp d hl
  set val : Constr ℝ → NDArray ℝ := fun c => ⟨c.fn.shape, (List.range (R c.fn).E.prod).flatMap fun e =>
      (List.range c.fn.fn.outShape.prod).map fun r => (S c.fn).F (argsOf p c.fn (R c.fn) e d) r⟩ with hval
  obtain ⟨cvec, h1, h2, h3, -⟩ := C07_constr p ⟨calls, hp.reach⟩ d vs hvs val (fun c hc =>
    ⟨val c, call_form S R hp (h c hc) d hl vs hvs,
      broadcastTo_self' (val c) rfl (call_length S R hp (h c hc) fun e r => (S c.fn).F (argsOf p c.fn (R c.fn) e d) r)⟩)
  refine ⟨cvec, h1, h2, fun q hq => ?_⟩
  have hcon : Consec 0 (p.constraints.map fun c => (c.offset, c.fn.shape.prod)) := by
    obtain ⟨ex, rfl⟩ := hp.reach
    exact (inv_run calls).conTiles.consec
  have key : ∀ (l : List (Constr ℝ)) (o : Nat), (∀ c ∈ l, c ∈ p.constraints) →
      Consec o (l.map fun c => (c.offset, c.fn.shape.prod)) → ∀ q,
      wsum p l (·.fn) S R (fun c e r => if e * c.fn.fn.outShape.prod + r + c.offset = q then 1 else 0) d =
        if o ≤ q then (l.flatMap fun c => (val c).data).getD (q - o) 0 else 0 := by
    intro l
    induction l with
    | nil => intro o _ _ q; simp [wsum]
    | cons c l ih =>
      intro o hm hc q
      have hoff : c.offset = o := hc.1
      have hc2 : Consec (o + c.fn.shape.prod) (l.map fun c => (c.offset, c.fn.shape.prod)) := hc.2
      have hi := ih _ (fun c' h' => hm c' (by simp [h'])) hc2 q
      unfold wsum at hi ⊢
      have ho := h c (hm c (by simp))
      rw [List.map_cons, List.sum_cons, hi]
      have hlen : (val c).data.length = c.fn.shape.prod :=
        call_length S R hp ho fun e r => (S c.fn).F (argsOf p c.fn (R c.fn) e d) r
      have hsz : c.fn.shape.prod = (R c.fn).E.prod * c.fn.fn.outShape.prod := by rw [ho.shape, List.prod_append]
      have hblk : (∑ e ∈ Finset.range (R c.fn).E.prod, ∑ r ∈ Finset.range c.fn.fn.outShape.prod,
          (if e * c.fn.fn.outShape.prod + r + c.offset = q then 1 else 0) *
            (S c.fn).F (argsOf p c.fn (R c.fn) e d) r) =
          ∑ i ∈ Finset.range c.fn.shape.prod, if i + o = q then (val c).data.getD i 0 else 0 := by
        rw [hsz, sum_range_mul]
        refine Finset.sum_congr rfl fun e he => Finset.sum_congr rfl fun r hr => ?_
        have he := Finset.mem_range.1 he
        have hr := Finset.mem_range.1 hr
        have hd : (val c).data = (List.range ((R c.fn).E.prod * c.fn.fn.outShape.prod)).map fun i =>
          (S c.fn).F (argsOf p c.fn (R c.fn) (i / c.fn.fn.outShape.prod) d) (i % c.fn.fn.outShape.prod) :=
          range_flatMap_map _ _ fun e r => (S c.fn).F (argsOf p c.fn (R c.fn) e d) r
        rw [hd, getD_map_range 0 _ (mul_add_lt he hr), hoff]
        have hpos : 0 < c.fn.fn.outShape.prod := by omega
        have e1 : (e * c.fn.fn.outShape.prod + r) / c.fn.fn.outShape.prod = e := by
          rw [Nat.add_comm, Nat.add_mul_div_right _ _ hpos, Nat.div_eq_of_lt hr, Nat.zero_add]
        have e2 : (e * c.fn.fn.outShape.prod + r) % c.fn.fn.outShape.prod = r := by
          rw [Nat.add_comm, Nat.add_mul_mod_self_right, Nat.mod_eq_of_lt hr]
        rw [e1, e2]
        split <;> simp
      rw [hblk, List.flatMap_cons]
      by_cases h1 : o ≤ q
      · rw [if_pos h1]
        by_cases h2 : q - o < c.fn.shape.prod
        · rw [if_neg (by omega), add_zero, List.getD_eq_getElem?_getD, List.getElem?_append_left (by rw [hlen]; exact h2),
            ← List.getD_eq_getElem?_getD, Finset.sum_eq_single (q - o)]
          · rw [if_pos (by omega)]
          · intro i _ hi; rw [if_neg (by omega)]
          · intro h; exact absurd (Finset.mem_range.2 h2) h
        · rw [if_pos (by omega), Finset.sum_eq_zero, zero_add, List.getD_eq_getElem?_getD, List.getD_eq_getElem?_getD,
            List.getElem?_append_right (by rw [hlen]; omega), hlen]
          · rw [Nat.sub_sub]
          · intro i hi
            have := Finset.mem_range.1 hi
            rw [if_neg (by omega)]
      · rw [if_neg h1, if_neg (by omega), Finset.sum_eq_zero, zero_add]
        intro i _
        rw [if_neg (by omega)]
  rw [key p.constraints 0 (fun _ h => h) hcon q, h3]
  simp

theorem hasDeriv_list_sum {C : Type} (cs : List C) (f : C → ℝ → ℝ) (f' : C → ℝ) (t : ℝ)
    (h : ∀ c ∈ cs, HasDerivAt (f c) (f' c) t) :
    HasDerivAt (fun s => (cs.map fun c => f c s).sum) (cs.map f').sum t := by
  induction cs with
  | nil => simpa using hasDerivAt_const t (0 : ℝ)
  | cons c cs ih =>
    simp only [List.map_cons, List.sum_cons]
    exact (h c (by simp)).add (ih fun c' hc' => h c' (by simp [hc']))

/-- First derivatives. -/
theorem wsum_deriv1 {C : Type} (cs : List C) (fn : C → OptFun ℝ) (w : C → Nat → Nat → ℝ)
    (h : ∀ c ∈ cs, FunOK p (fn c) (S (fn c)) (R (fn c)) ∧
      SparseOK (fn c) (R (fn c)) (fn c).fn.jac (S (fn c)).jac 1)
    (d : List ℝ) (hl : d.length = p.ndec)
    (hd : ∀ c ∈ cs, ∀ e < (R (fn c)).E.prod, JacRight (fn c) (S (fn c)) (R (fn c)) (argsOf p (fn c) (R (fn c)) e d))
    (i : Nat) (hi : i < p.ndec) :
    HasDerivAt (fun t => wsum p cs fn S R w (d.set i t))
      (cs.map fun c => ((fn c).fn.jac.map fun wd => ∑ e ∈ Finset.range (R (fn c)).E.prod,
        ∑ n ∈ Finset.range wd.2.nnz, w c e (col wd.2.ind 1 n) * (S (fn c)).jac wd.1 (argsOf p (fn c) (R (fn c)) e d) n *
          (if posOf p (fn c) (R (fn c)) e (argOf (fn c) wd.1 0) (col wd.2.ind 0 n) = i then 1 else 0)).sum).sum
      (d.getD i 0) := by
  unfold wsum
  refine hasDeriv_list_sum (p := p) hp cs _ _ _ fun c hc => ?_
  obtain ⟨ho, hs⟩ := h c hc
  rw [← list_sum_finset]
  refine HasDerivAt.fun_sum fun e he => ?_
  have he := Finset.mem_range.1 he
  have hi' : i < d.length := by omega
  have h1 : ∀ r < (fn c).fn.outShape.prod, HasDerivAt
      (fun t => (S (fn c)).F (argsOf p (fn c) (R (fn c)) e (d.set i t)) r) _ (d.getD i 0) := fun r hr =>
    chain1 (d := d) (t := d.getD i 0) hi' (by
      rw [set_getD_self]
      exact hd c hc e he r hr)
  have h2 := HasDerivAt.fun_sum (u := Finset.range (fn c).fn.outShape.prod)
    fun r hr => (h1 r (Finset.mem_range.1 hr)).const_mul (w c e r)
  convert h2 using 1
  rw [← assemble1 (osz := (fn c).fn.outShape.prod) (m := (fn c).fn.argNames.length)
    (bsz := fun j => ((R (fn c)).bs j).prod) (var := (R (fn c)).var) (fn c).fn.jac (fun wd => wd.2.nnz)
    (fun wd => argOf (fn c) wd.1 0) (fun wd n => col wd.2.ind 0 n) (fun wd n => col wd.2.ind 1 n)
    (fun wd n => (S (fn c)).jac wd.1 (argsOf p (fn c) (R (fn c)) e d) n) (w c e)
    (fun j k => if posOf p (fn c) (R (fn c)) e j k = i then 1 else 0)]
  · refine Finset.sum_congr rfl fun r _ => ?_
    congr 1
    refine Finset.sum_congr rfl fun j hj => ?_
    have hj := Finset.mem_range.1 hj
    split
    · refine Finset.sum_congr rfl fun k _ => ?_
      congr 1
      unfold jacEntry
      refine congrArg _ (List.map_congr_left fun wd hwd => ?_)
      unfold assemble
      refine Finset.sum_congr rfl fun n _ => if_congr ?_ rfl rfl
      refine and_congr_left fun _ => ?_
      obtain ⟨hj0, -, hw, -⟩ := hs.one hp ho (wrt := wd.1) (d := wd.2) hwd
      constructor
      · rintro rfl; exact hw
      · intro h
        rw [argOf, h]
        exact (ho.idx hp hj).symm
    · rfl
  · intro wd hwd
    obtain ⟨hj0, hv0, -, -, hc, -⟩ := hs.one hp ho (wrt := wd.1) (d := wd.2) hwd
    exact ⟨hj0, hv0, hc⟩

/-- Second derivatives. -/
theorem wsum_deriv2 {C : Type} (cs : List C) (fn : C → OptFun ℝ) (w : C → Nat → Nat → ℝ)
    (h : ∀ c ∈ cs, FunOK p (fn c) (S (fn c)) (R (fn c)) ∧
      SparseOK (fn c) (R (fn c)) (fn c).fn.hess (S (fn c)).hess 2)
    (d : List ℝ) (hl : d.length = p.ndec)
    (hd : ∀ c ∈ cs, ∀ e < (R (fn c)).E.prod, HessRight (fn c) (S (fn c)) (R (fn c)) (argsOf p (fn c) (R (fn c)) e d))
    (hna : ∀ c ∈ cs, NoAlias p (fn c) (R (fn c)))
    (i i' : Nat) (hi : i < p.ndec) (hi' : i' < p.ndec) :
    HasDerivAt (fun s => deriv (fun t => wsum p cs fn S R w ((d.set i s).set i' t)) ((d.set i s).getD i' 0))
      (cs.map fun c => ((fn c).fn.hess.map fun wd => ∑ e ∈ Finset.range (R (fn c)).E.prod,
        ∑ n ∈ Finset.range wd.2.nnz, w c e (col wd.2.ind 2 n) * (S (fn c)).hess wd.1 (argsOf p (fn c) (R (fn c)) e d) n *
          (if posOf p (fn c) (R (fn c)) e (argOf (fn c) wd.1 0) (col wd.2.ind 0 n) = i ∧
              posOf p (fn c) (R (fn c)) e (argOf (fn c) wd.1 1) (col wd.2.ind 1 n) = i' ∨
              posOf p (fn c) (R (fn c)) e (argOf (fn c) wd.1 0) (col wd.2.ind 0 n) = i' ∧
              posOf p (fn c) (R (fn c)) e (argOf (fn c) wd.1 1) (col wd.2.ind 1 n) = i
            then 1 else 0)).sum).sum
      (d.getD i 0) ∧
    ∀ᶠ s in nhds (d.getD i 0), DifferentiableAt ℝ (fun t => wsum p cs fn S R w ((d.set i s).set i' t))
      ((d.set i s).getD i' 0) := by
  classical
  have hid : i < d.length := by omega
  choose! D hD1 hD2 using hd
  -- first derivatives near d
  have hev : ∀ᶠ s in nhds (d.getD i 0), HasDerivAt (fun t => wsum p cs fn S R w ((d.set i s).set i' t))
      (cs.map fun c => ∑ e ∈ Finset.range (R (fn c)).E.prod, ∑ r ∈ Finset.range (fn c).fn.outShape.prod,
        w c e r * entSum (fn c).fn.argNames.length (fun j => ((R (fn c)).bs j).prod) (R (fn c)).var fun j k =>
          D c e (argsOf p (fn c) (R (fn c)) e (d.set i s)) r j k *
            (if posOf p (fn c) (R (fn c)) e j k = i' then 1 else 0)).sum ((d.set i s).getD i' 0) := by
    have hev1 : ∀ᶠ s in nhds (d.getD i 0), ∀ c ∈ cs, ∀ e ∈ Finset.range (R (fn c)).E.prod,
        ∀ r ∈ Finset.range (fn c).fn.outShape.prod,
        HasPartialsAt (fn c).fn.argNames.length (fun j => ((R (fn c)).bs j).prod) (R (fn c)).var
          (fun z => (S (fn c)).F z r) (D c e (argsOf p (fn c) (R (fn c)) e (d.set i s)) r)
          (argsOf p (fn c) (R (fn c)) e (d.set i s)) := by
      have hfin : ∀ (l : List C) (P : C → ℝ → Prop), (∀ c ∈ l, ∀ᶠ s in nhds (d.getD i 0), P c s) →
          ∀ᶠ s in nhds (d.getD i 0), ∀ c ∈ l, P c s := by
        intro l P
        induction l with
        | nil => intro _; simp
        | cons a l ih =>
          intro hP
          filter_upwards [hP a (by simp), ih fun c hc => hP c (by simp [hc])] with s h1 h2 c hc
          rcases List.mem_cons.1 hc with rfl | hc
          · exact h1
          · exact h2 c hc
      refine hfin cs _ fun c hc => ?_
      refine (Filter.eventually_all_finset _).2 fun e he => ?_
      refine (Filter.eventually_all_finset _).2 fun r hr => ?_
      have hcont : Filter.Tendsto (fun s => argsOf p (fn c) (R (fn c)) e (d.set i s)) (nhds (d.getD i 0))
          (nhds (argsOf p (fn c) (R (fn c)) e d)) := by
        have := (gArgs_continuous (d := d) (m := (fn c).fn.argNames.length) (bsz := fun j => ((R (fn c)).bs j).prod)
          (var := (R (fn c)).var) (K := constOf p (fn c) (R (fn c)) e) hid (posOf p (fn c) (R (fn c)) e)).tendsto
          (d.getD i 0)
        rw [set_getD_self] at this
        exact this
      exact hcont.eventually (hD1 c hc e (Finset.mem_range.1 he) r (Finset.mem_range.1 hr))
    filter_upwards [hev1] with s hs
    unfold wsum
    refine hasDeriv_list_sum (p := p) hp cs _ _ _ fun c hc => ?_
    refine HasDerivAt.fun_sum fun e he => HasDerivAt.fun_sum fun r hr => HasDerivAt.const_mul _ ?_
    exact chain1 (d := d.set i s) (i := i') (t := (d.set i s).getD i' 0) (by simp; omega) (by
      rw [set_getD_self]
      exact hs c hc e he r hr)
  refine ⟨?_, hev.mono fun s hs => hs.differentiableAt⟩
  have hevd : (fun s => deriv (fun t => wsum p cs fn S R w ((d.set i s).set i' t)) ((d.set i s).getD i' 0)) =ᶠ[
      nhds (d.getD i 0)] _ := hev.mono fun s hs => hs.deriv
  refine HasDerivAt.congr_of_eventuallyEq ?_ hevd
  refine hasDeriv_list_sum (p := p) hp cs _ _ _ fun c hc => ?_
  obtain ⟨ho, hs⟩ := h c hc
  rw [← list_sum_finset]
  refine HasDerivAt.fun_sum fun e he => ?_
  have he := Finset.mem_range.1 he
  have h2 := HasDerivAt.fun_sum (u := Finset.range (fn c).fn.outShape.prod) fun r hr =>
    (entSum_deriv (m := (fn c).fn.argNames.length) (bsz := fun j => ((R (fn c)).bs j).prod) (var := (R (fn c)).var)
      (t := d.getD i 0)
      (f := fun j k s => D c e (argsOf p (fn c) (R (fn c)) e (d.set i s)) r j k *
            (if posOf p (fn c) (R (fn c)) e j k = i' then 1 else 0))
      fun j hj hv k hk => (chain1 (d := d) (i := i) (t := d.getD i 0) (f := fun y => D c e y r j k)
        (pos := posOf p (fn c) (R (fn c)) e) (K := constOf p (fn c) (R (fn c)) e) hid (by
          rw [set_getD_self]
          exact hD2 c hc e he r (Finset.mem_range.1 hr) j hj hv k hk)).mul_const _).const_mul (w c e r)
  convert h2 using 1
  -- pick the entries
  have hent : ∀ r j k j' k', j < (fn c).fn.argNames.length → j' < (fn c).fn.argNames.length →
      hessEntry (fn c) (S (fn c)) (argsOf p (fn c) (R (fn c)) e d) r j k j' k' =
      ((fn c).fn.hess.map fun wd => ∑ n ∈ Finset.range wd.2.nnz, if col wd.2.ind 2 n = r then
        (if j = argOf (fn c) wd.1 0 ∧ j' = argOf (fn c) wd.1 1 ∧ col wd.2.ind 0 n = k ∧ col wd.2.ind 1 n = k' ∨
          j' = argOf (fn c) wd.1 0 ∧ j = argOf (fn c) wd.1 1 ∧ col wd.2.ind 0 n = k' ∧ col wd.2.ind 1 n = k then
          (S (fn c)).hess wd.1 (argsOf p (fn c) (R (fn c)) e d) n else 0) else 0).sum := by
    intro r j k j' k' hj hj'
    unfold hessEntry
    refine congrArg _ (List.map_congr_left fun wd hwd => ?_)
    unfold assemble
    refine Finset.sum_congr rfl fun n _ => ?_
    obtain ⟨hj0, -, hj1, -, hw, -⟩ := hs.two hp ho (wrt := wd.1) (d := wd.2) hwd
    have hkey : ∀ a b, a < (fn c).fn.argNames.length → b < (fn c).fn.argNames.length →
        (wd.1 = [(fn c).fn.argNames.getD a "", (fn c).fn.argNames.getD b ""] ↔
          a = argOf (fn c) wd.1 0 ∧ b = argOf (fn c) wd.1 1) := by
      intro a b ha hb
      constructor
      · intro h
        rw [argOf, argOf, h]
        exact ⟨(ho.idx hp ha).symm, (ho.idx hp hb).symm⟩
      · rintro ⟨rfl, rfl⟩; exact hw
    rw [← ite_and]
    refine if_congr (and_congr_right fun _ => ?_) rfl rfl
    rw [hkey j j' hj hj', hkey j' j hj' hj]
    tauto
  rw [← assemble2 (osz := (fn c).fn.outShape.prod) (m := (fn c).fn.argNames.length)
    (bsz := fun j => ((R (fn c)).bs j).prod) (var := (R (fn c)).var) (fn c).fn.hess (fun wd => wd.2.nnz)
    (fun wd => argOf (fn c) wd.1 0) (fun wd => argOf (fn c) wd.1 1) (fun wd n => col wd.2.ind 0 n)
    (fun wd n => col wd.2.ind 1 n) (fun wd n => col wd.2.ind 2 n)
    (fun wd n => (S (fn c)).hess wd.1 (argsOf p (fn c) (R (fn c)) e d) n) (w c e)
    (posOf p (fn c) (R (fn c)) e) i i']
  · refine Finset.sum_congr rfl fun r _ => ?_
    congr 1
    refine entSum_congr fun j hj _ k _ => ?_
    congr 1
    refine entSum_congr fun j' hj' _ k' _ => ?_
    rw [hent r j k j' k' hj hj']
  · intro wd hwd
    obtain ⟨hj0, hv0, hj1, hv1, -, -, hcol, -⟩ := hs.two hp ho (wrt := wd.1) (d := wd.2) hwd
    refine ⟨hj0, hv0, hj1, hv1, fun n hn => ?_⟩
    obtain ⟨a1, a2, a3⟩ := hcol n hn
    refine ⟨a1, a2, a3, fun heq => ?_⟩
    obtain ⟨s0, t0⟩ := ho.spec hp hj0 hv0
    obtain ⟨s1, t1⟩ := ho.spec hp hj1 hv1
    refine hna c hc e he _ hj0 _ hj1 hv0 hv1 _ a1 _ a2 _ _ s0 s1 ?_
    rw [(spec_gathers hp s0).ind _ (by rw [t0]; exact ho.flat_lt hp hj0 he a1),
      (spec_gathers hp s1).ind _ (by rw [t1]; exact ho.flat_lt hp hj1 he a2)]
    exact congrArg _ heq

end

end Ceacoest
