import Verif.Spec.SymExpr
import Verif.Lemmas.Piece

/-! # Lemmas on the language of expressions -/

namespace Ceacoest
open Spec

theorem flatMap_getElem? {β : Type _} {g : Nat → List β} {n : Nat} (p : Nat) (hg : ∀ k < p, (g k).length = n) :
    ((List.range p).flatMap g).length = p * n ∧
    ∀ k < p, ∀ r < n, ((List.range p).flatMap g)[k * n + r]? = (g k)[r]? := by
  induction p with
  | zero => simp
  | succ p ih =>
    obtain ⟨h1, h2⟩ := ih fun k hk => hg k (by omega)
    rw [List.range_succ, List.flatMap_append]
    simp only [List.flatMap_cons, List.flatMap_nil, List.append_nil]
    refine ⟨by rw [List.length_append, h1, hg p (by omega), Nat.succ_mul], fun k hk r hr => ?_⟩
    by_cases h : k = p
    · subst h
      rw [List.getElem?_append_right (by rw [h1]; omega), h1]
      congr 1
      omega
    · have hk' : k < p := by omega
      have : k * n + r < p * n := mul_add_lt hk' hr
      rw [List.getElem?_append_left (by rw [h1]; exact this), h2 k hk' r hr]

namespace Spec.SExpr

theorem isZero_ev : ∀ e : SExpr, e.isZero = true → ∀ v, e.ev v = 0
  | const r, h, v => by simpa [isZero, ev] using h
  | mul a b, h, v => by
    simp only [isZero, Bool.or_eq_true] at h
    rcases h with h | h
    · simp [ev, isZero_ev a h v]
    · simp [ev, isZero_ev b h v]
  | add a b, h, v => by
    simp only [isZero, Bool.and_eq_true] at h
    simp [ev, isZero_ev a h.1 v, isZero_ev b h.2 v]
  | var _ _, h, _ => by simp [isZero] at h
  | inv _, h, _ => by simp [isZero] at h
  | sin _, h, _ => by simp [isZero] at h
  | cos _, h, _ => by simp [isZero] at h
  | exp _, h, _ => by simp [isZero] at h
  | log _, h, _ => by simp [isZero] at h

theorem D_comm (n m : String) (k l : Nat) (v : Env) : ∀ e : SExpr, ((e.D n k).D m l).ev v = ((e.D m l).D n k).ev v
  | const _ => rfl
  | var _ _ => rfl
  | add a b => by simp only [D, ev, D_comm n m k l v a, D_comm n m k l v b]
  | mul a b => by simp only [D, ev, D_comm n m k l v a, D_comm n m k l v b]; ring
  | inv a => by simp only [D, ev, D_comm n m k l v a]; ring
  | sin a => by simp only [D, ev, D_comm n m k l v a]; ring
  | cos a => by simp only [D, ev, D_comm n m k l v a]; ring
  | exp a => by simp only [D, ev, D_comm n m k l v a]; ring
  | log a => by simp only [D, ev, D_comm n m k l v a]; ring

theorem Defined.D {n : String} {k : Nat} {v : Env} : ∀ {e : SExpr}, e.Defined v → (e.D n k).Defined v
  | const _, _ => trivial
  | var _ _, _ => trivial
  | add _ _, h => ⟨h.1.D, h.2.D⟩
  | mul _ _, h => ⟨⟨h.1.D, h.2⟩, h.1, h.2.D⟩
  | inv _, h => ⟨trivial, ⟨h, h⟩, h.1.D⟩
  | sin _, h => ⟨h, Defined.D (e := _) h⟩
  | cos _, h => ⟨trivial, h, Defined.D (e := _) h⟩
  | exp _, h => ⟨h, Defined.D (e := _) h⟩
  | log _, h => ⟨⟨h.1, h.2.ne'⟩, h.1.D⟩

/-- Values depend continuously on the variables. -/
theorem continuousAt (args : List String) (x : Args) :
    ∀ e : SExpr, e.Defined (argEnv args x) → ContinuousAt (fun y => e.ev (argEnv args y)) x
  | const _, _ => continuousAt_const
  | var n k, _ => by
    have : Continuous fun y : Args => y (args.idxOf n) k := (continuous_apply k).comp (continuous_apply _)
    exact this.continuousAt
  | add a b, h => (continuousAt args x a h.1).add (continuousAt args x b h.2)
  | mul a b, h => (continuousAt args x a h.1).mul (continuousAt args x b h.2)
  | inv a, h => (continuousAt args x a h.1).inv₀ h.2
  | sin a, h => (Real.hasDerivAt_sin _).continuousAt.comp (f := fun y => a.ev (argEnv args y)) (continuousAt args x a h)
  | cos a, h => (Real.hasDerivAt_cos _).continuousAt.comp (f := fun y => a.ev (argEnv args y)) (continuousAt args x a h)
  | exp a, h => Real.continuous_exp.continuousAt.comp (continuousAt args x a h)
  | log a, h => (Real.continuousAt_log h.2.ne').comp (f := fun y => a.ev (argEnv args y)) (continuousAt args x a h.1)

/-- An expression defined at a point is defined around it. -/
theorem Defined.eventually (args : List String) (x : Args) :
    ∀ e : SExpr, e.Defined (argEnv args x) → ∀ᶠ y in nhds x, e.Defined (argEnv args y)
  | const _, _ => Filter.Eventually.of_forall fun _ => trivial
  | var _ _, _ => Filter.Eventually.of_forall fun _ => trivial
  | add a b, h => (Defined.eventually args x a h.1).and (Defined.eventually args x b h.2)
  | mul a b, h => (Defined.eventually args x a h.1).and (Defined.eventually args x b h.2)
  | inv a, h => (Defined.eventually args x a h.1).and ((continuousAt args x a h.1).eventually_ne h.2)
  | sin a, h => Defined.eventually args x a h
  | cos a, h => Defined.eventually args x a h
  | exp a, h => Defined.eventually args x a h
  | log a, h => (Defined.eventually args x a h.1).and ((continuousAt args x a h.1).eventually_const_lt h.2)

/-- The differential: a combination of partial derivatives `g`. -/
noncomputable def diff (args : List String) (bsz : Nat → Nat) (var : Nat → Bool) (c' : Args) (g : String → Nat → ℝ) : ℝ :=
  ∑ j ∈ Finset.range args.length, if var j then ∑ k ∈ Finset.range (bsz j), g (args.getD j "") k * c' j k else 0

section diff
variable {args : List String} {bsz : Nat → Nat} {vr : Nat → Bool} {c' : Args}

theorem diff_add (g h : String → Nat → ℝ) :
    diff args bsz vr c' (fun n k => g n k + h n k) = diff args bsz vr c' g + diff args bsz vr c' h := by
  unfold diff
  rw [← Finset.sum_add_distrib]
  refine Finset.sum_congr rfl fun j _ => ?_
  split
  · rw [← Finset.sum_add_distrib]
    exact Finset.sum_congr rfl fun k _ => add_mul _ _ _
  · simp

theorem diff_mul (a : ℝ) (g : String → Nat → ℝ) : diff args bsz vr c' (fun n k => a * g n k) = a * diff args bsz vr c' g := by
  unfold diff
  rw [Finset.mul_sum]
  refine Finset.sum_congr rfl fun j _ => ?_
  split
  · rw [Finset.mul_sum]
    exact Finset.sum_congr rfl fun k _ => mul_assoc _ _ _
  · simp

theorem diff_zero : diff args bsz vr c' (fun _ _ => 0) = 0 := by
  unfold diff
  refine Finset.sum_eq_zero fun j _ => ?_
  split <;> simp

open Classical in
theorem diff_var (hn : args.Nodup) (n : String) (k : Nat) :
    diff args bsz vr c' (fun m l => if n = m ∧ k = l then 1 else 0) =
      if args.idxOf n < args.length ∧ vr (args.idxOf n) = true ∧ k < bsz (args.idxOf n) then c' (args.idxOf n) k else 0 := by
  unfold diff
  have key : ∀ j < args.length, n = args.getD j "" ↔ args.idxOf n = j := by
    intro j hj
    rw [List.getD_eq_getElem?_getD, List.getElem?_eq_getElem hj, Option.getD_some]
    constructor
    · rintro rfl; exact List.Nodup.idxOf_getElem hn j hj
    · intro h; subst h; simp
  have e1 : ∀ j ∈ Finset.range args.length, (if vr j = true then ∑ l ∈ Finset.range (bsz j),
      (if n = args.getD j "" ∧ k = l then (1 : ℝ) else 0) * c' j l else 0) =
      if args.idxOf n = j then (if vr (args.idxOf n) = true ∧ k < bsz (args.idxOf n) then c' (args.idxOf n) k else 0) else 0 := by
    intro j hj
    rw [Finset.mem_range] at hj
    simp only [key j hj]
    by_cases h : args.idxOf n = j
    · simp only [h, true_and, if_true]
      by_cases h2 : vr j = true
      · simp [h2, ite_mul, Finset.sum_ite_eq, Finset.mem_range]
      · simp [h2]
    · simp [h]
  rw [Finset.sum_congr rfl e1, Finset.sum_ite_eq]
  simp only [Finset.mem_range]
  by_cases h : args.idxOf n < args.length <;> simp [h]

/-- The partial derivatives of an expression are right wherever it is defined. -/
theorem hasDerivAt (hn : args.Nodup) {c : ℝ → Args} {t : ℝ} {x : Args} (hc : c t = x)
    (hd : ∀ j < args.length, ∀ k < bsz j, HasDerivAt (fun s => c s j k) (c' j k) t)
    (hv : ∀ j < args.length, vr j = false → ∀ s, c s j = x j) (hm : ∀ j, args.length ≤ j → ∀ s, c s j = x j)
    (hk : ∀ j k, bsz j ≤ k → ∀ s, c s j k = x j k) :
    ∀ e : SExpr, e.Defined (argEnv args x) →
      HasDerivAt (fun s => e.ev (argEnv args (c s))) (diff args bsz vr c' fun n k => (e.D n k).ev (argEnv args x)) t
  | const r, _ => by
    simp only [D, ev, diff_zero]
    exact hasDerivAt_const _ _
  | var n k, _ => by
    simp only [D, ev]
    rw [diff_var hn n k]
    unfold argEnv
    split
    · next h => exact hd _ h.1 _ h.2.2
    · next h =>
      have : (fun s => c s (args.idxOf n) k) = fun _ => x (args.idxOf n) k := by
        funext s
        by_cases h1 : args.idxOf n < args.length
        · by_cases h2 : vr (args.idxOf n) = true
          · exact hk _ _ (by by_contra h3; exact h ⟨h1, h2, by omega⟩) s
          · rw [hv _ h1 (by simpa using h2) s]
        · rw [hm _ (by omega) s]
      rw [this]
      exact hasDerivAt_const _ _
  | add a b, h => by
    simp only [D, ev, diff_add]
    exact (hasDerivAt hn hc hd hv hm hk a h.1).add (hasDerivAt hn hc hd hv hm hk b h.2)
  | mul a b, h => by
    have ha := hasDerivAt hn hc hd hv hm hk a h.1
    have hb := hasDerivAt hn hc hd hv hm hk b h.2
    simp only [D, ev]
    rw [diff_add, diff_mul]
    have := ha.mul hb
    rw [hc] at this
    refine this.congr_deriv ?_
    simp only [mul_comm _ (ev b _)]
    rw [diff_mul]
  | inv a, h => by
    have ha := hasDerivAt hn hc hd hv hm hk a h.1
    have := ha.inv (by rw [hc]; exact h.2)
    rw [hc] at this
    simp only [D, ev]
    rw [diff_mul, diff_mul]
    refine this.congr_deriv ?_
    have := h.2
    field_simp
  | sin a, h => by
    have ha := hasDerivAt hn hc hd hv hm hk a h
    have := ha.sin
    rw [hc] at this
    simp only [D, ev]
    rw [diff_mul]
    exact this
  | cos a, h => by
    have ha := hasDerivAt hn hc hd hv hm hk a h
    have := ha.cos
    rw [hc] at this
    simp only [D, ev]
    rw [diff_mul, diff_mul]
    exact this.congr_deriv (by ring)
  | exp a, h => by
    have ha := hasDerivAt hn hc hd hv hm hk a h
    have := ha.exp
    rw [hc] at this
    simp only [D, ev]
    rw [diff_mul]
    exact this
  | log a, h => by
    have ha := hasDerivAt hn hc hd hv hm hk a h.1
    have := ha.log (by rw [hc]; exact h.2.ne')
    rw [hc] at this
    simp only [D, ev]
    rw [diff_mul]
    exact this.congr_deriv (by rw [div_eq_inv_mul])

end diff

/-- Change one entry of one variable. -/
def upd (env : Env) (n : String) (k : Nat) (s : ℝ) : Env := fun m l => if m = n ∧ l = k then s else env m l

theorem hasDerivAt_upd (env : Env) (n : String) (k : Nat) (t : ℝ) :
    ∀ e : SExpr, e.Defined (upd env n k t) → HasDerivAt (fun s => e.ev (upd env n k s)) ((e.D n k).ev (upd env n k t)) t
  | const r, _ => hasDerivAt_const _ _
  | var m l, _ => by
    simp only [D, ev, upd]
    split
    · exact hasDerivAt_id t
    · exact hasDerivAt_const _ _
  | add a b, h => (hasDerivAt_upd env n k t a h.1).add (hasDerivAt_upd env n k t b h.2)
  | mul a b, h => (hasDerivAt_upd env n k t a h.1).mul (hasDerivAt_upd env n k t b h.2)
  | inv a, h => by
    refine ((hasDerivAt_upd env n k t a h.1).inv h.2).congr_deriv ?_
    have := h.2
    simp only [D, ev]
    field_simp
  | sin a, h => (hasDerivAt_upd env n k t a h).sin
  | cos a, h => (hasDerivAt_upd env n k t a h).cos.congr_deriv (by simp only [D, ev]; ring)
  | exp a, h => (hasDerivAt_upd env n k t a h).exp
  | log a, h => ((hasDerivAt_upd env n k t a h.1).log h.2.ne').congr_deriv (by simp only [D, ev]; rw [div_eq_inv_mul])

/-! ### Entries of derivatives -/

theorem outs_length (shape : String → List Nat) (wrt : List String) (es : List SExpr) :
    (outs shape wrt es).length = (wrt.flatMap shape).prod * es.length := by
  induction wrt generalizing es with
  | nil => simp [outs]
  | cons a l ih =>
    rw [outs, (flatMap_getElem? (n := (l.flatMap shape).prod * es.length) _ fun k _ => by rw [ih]; simp).1]
    simp [List.prod_append, Nat.mul_assoc]

theorem deriv_entry (shape : String → List Nat) (f : SymFn SExpr) (hf : f.out.length = f.outShape.prod) (a : String) {k r : Nat}
    (hk : k < (shape a).prod) (hr : r < f.outShape.prod) (y : Args) :
    symVal ev ((sym2num shape).deriv f [a]) y (k * f.outShape.prod + r) =
      ((f.out.getD r (const 0)).D a k).ev (argEnv f.args y) := by
  unfold symVal sym2num
  simp only [outs]
  rw [(flatMap_getElem? (n := f.outShape.prod) _ fun k _ => by simp [hf]).2 k hk r hr]
  have : r < f.out.length := by omega
  simp [this]

theorem deriv2_entry (shape : String → List Nat) (f : SymFn SExpr) (hf : f.out.length = f.outShape.prod) (a b : String) {k l r : Nat}
    (hk : k < (shape a).prod) (hl : l < (shape b).prod) (hr : r < f.outShape.prod) (y : Args) :
    symVal ev ((sym2num shape).deriv f [a, b]) y ((k * (shape b).prod + l) * f.outShape.prod + r) =
      (((f.out.getD r (const 0)).D a k).D b l).ev (argEnv f.args y) := by
  unfold symVal sym2num
  simp only [outs]
  have e : (k * (shape b).prod + l) * f.outShape.prod + r = k * ((shape b).prod * f.outShape.prod) + (l * f.outShape.prod + r) := by
    ring
  rw [e, (flatMap_getElem? (n := (shape b).prod * f.outShape.prod) _ fun k _ => by
      rw [(flatMap_getElem? (n := f.outShape.prod) _ fun k _ => by simp [hf]).1]).2 k hk _ (mul_add_lt hl hr),
    (flatMap_getElem? (n := f.outShape.prod) _ fun k _ => by simp [hf]).2 l hl r hr]
  have : r < f.out.length := by omega
  simp [this]

theorem val_entry (f : SymFn SExpr) (hf : f.out.length = f.outShape.prod) {r : Nat} (hr : r < f.outShape.prod) (y : Args) :
    symVal ev f y r = (f.out.getD r (const 0)).ev (argEnv f.args y) := by
  have : r < f.out.length := by omega
  simp [symVal, this]

end Spec.SExpr
end Ceacoest
