import Verif.Lemmas.KalmanCore

/-! # The loops of base.py:133-176 -/

namespace Ceacoest
open FilterClass Matrix
variable {nx : Nat} {Y p σ : Type}

/-- `g` on each sample, `h` between any two. -/
def walk (g : Y → σ → Py σ) (h : σ → Py σ) : List Y → σ → Py σ
  | [], s => .ok s
  | [y], s => g y s
  | y :: y' :: ys, s => g y s >>= fun s => h s >>= fun s => walk g h (y' :: ys) s

theorem walk_from {step : List Y → σ → Nat → Py σ} {g : Y → σ → Py σ} {h : σ → Py σ}
    (hs : ∀ y s k, step y s k = row y k >>= fun r => g r s >>= fun s => if k < y.length - 1 then h s else .ok s) (rest pre : List Y) (s : σ) :
    (List.range' pre.length rest.length).foldlM (step (pre ++ rest)) s = walk g h rest s := by
  induction rest generalizing pre s with
  | nil => rfl
  | cons y rest ih =>
    rw [List.length_cons, List.range'_succ, List.foldlM_cons, hs, row_append]
    simp only [py_bind_ok]
    cases rest with
    | nil =>
      rw [py_bind_assoc]
      unfold walk
      cases g y s with
      | error e => rfl
      | ok r =>
        simp only [py_bind_ok]
        rw [if_neg (by simp)]
        rfl
    | cons y' ys =>
      simp only [walk]
      rw [py_bind_assoc]
      refine py_bind_congr fun r _ => ?_
      rw [if_pos (by simp)]
      refine py_bind_congr fun r' _ => ?_
      have := ih (pre ++ [y]) r'
      simp only [List.append_assoc, List.singleton_append, List.length_append, List.length_singleton] at this
      exact this

theorem walk_eq {step : List Y → σ → Nat → Py σ} {g : Y → σ → Py σ} {h : σ → Py σ}
    (hs : ∀ y s k, step y s k = row y k >>= fun r => g r s >>= fun s => if k < y.length - 1 then h s else .ok s) (y : List Y) (s : σ) :
    (List.range y.length).foldlM (step y) s = walk g h y s := by
  have := walk_from hs y [] s
  rwa [List.length_nil, List.nil_append, ← List.range_eq_range'] at this

variable (F : FilterClass nx Y p σ)

/-- What the merit does with a sample. -/
def meritG (y : Y) (s : σ) : Py σ := F.correct y s >>= fun r => F.updateLikelihood r.2

/-- What it does between two samples. -/
def meritH (s : σ) : Py σ := F.predict s >>= fun r => .ok r.2

theorem pemMerit_eq (y : List Y) (s : σ) : F.pemMerit y s = (walk (meritG F) (meritH F) y s >>= fun s => .ok ((F.attrs s).L, s)) := by
  unfold FilterClass.pemMerit
  rw [walk_eq (g := meritG F) (h := meritH F)]
  · rfl
  · intro y s k
    unfold FilterClass.meritStep meritG meritH
    refine py_bind_congr fun r _ => ?_
    rw [py_bind_assoc]
    rfl

def gradientG (y : Y) (s : σ) : Py σ :=
  F.correct y s >>= fun r => F.correctionDiff r.2 >>= fun s => F.updateLikelihood s >>= fun s => F.likelihoodDiff s

def gradientH (s : σ) : Py σ := F.predict s >>= fun r => F.predictionDiff r.2

theorem pemGradient_eq (y : List Y) (s : σ) :
    F.pemGradient y s = (walk (gradientG F) (gradientH F) y s >>= fun s => .ok ((F.attrs s).dL_dq, s)) := by
  unfold FilterClass.pemGradient
  rw [walk_eq (g := gradientG F) (h := gradientH F)]
  · rfl
  · intro y s k
    unfold FilterClass.gradientStep gradientG gradientH
    refine py_bind_congr fun r _ => ?_
    rw [py_bind_assoc]
    refine py_bind_congr fun r _ => ?_
    rw [py_bind_assoc]
    refine py_bind_congr fun r _ => ?_
    rw [py_bind_assoc]
    rfl

def hessianG (y : Y) (s : σ) : Py σ :=
  F.correct y s >>= fun r => F.correctionDiff r.2 >>= fun s => F.correctionDiff2 s >>= fun s => F.updateLikelihood s >>= fun s =>
    F.likelihoodDiff s >>= fun s => F.likelihoodDiff2 s

def hessianH (s : σ) : Py σ := F.predict s >>= fun r => F.predictionDiff r.2 >>= fun s => F.predictionDiff2 s

theorem pemHessian_eq (y : List Y) (s : σ) :
    F.pemHessian y s = (walk (hessianG F) (hessianH F) y s >>= fun s => .ok ((F.attrs s).d2L_dq2, s)) := by
  unfold FilterClass.pemHessian
  rw [walk_eq (g := hessianG F) (h := hessianH F)]
  · rfl
  · intro y s k
    unfold FilterClass.hessianStep hessianG hessianH
    refine py_bind_congr fun r _ => ?_
    rw [py_bind_assoc]
    refine py_bind_congr fun r _ => ?_
    rw [py_bind_assoc]
    refine py_bind_congr fun r _ => ?_
    rw [py_bind_assoc]
    refine py_bind_congr fun r _ => ?_
    rw [py_bind_assoc]
    refine py_bind_congr fun r _ => ?_
    rw [py_bind_assoc]
    rfl

/-! ### The likelihood of a sample -/

/-- What `update_likelihood` adds. -/
noncomputable def UCorr.like {ns : Nat} {a : Type} [Fintype a] [LinearOrder a] (d : UCorr nx ns p a) : ℝ :=
  -(0.5 * ∑ i, ∑ j, d.e i * d.PyI i j * d.e j) - ∑ k, Real.log (d.PyC k k)

theorem like_eq {ns : Nat} {a : Type} [Fintype a] [LinearOrder a] (d : UCorr nx ns p a) {S : Matrix a a ℝ} (hI : d.PyI = S⁻¹)
    (hC : IsChol S d.PyCᵀ) : d.like = Real.log (Spec.gaussian S d.e) + Fintype.card a / 2 * Real.log (2 * Real.pi) := by
  have hdet : S.det = (∏ k, d.PyC k k) ^ 2 := by
    rw [← isChol_mul hC, det_mul, det_transpose, det_of_upperTriangular (M := d.PyC) (fun i j hij => hC.lower j i hij), sq]
  have hprod : 0 < ∏ k, d.PyC k k := Finset.prod_pos fun k _ => hC.pos k
  have hpos : 0 < S.det := hdet ▸ pow_pos hprod 2
  have hpi : (0 : ℝ) < 2 * Real.pi := by positivity
  have hm : 0 < (2 * Real.pi) ^ Fintype.card a * S.det := mul_pos (pow_pos hpi _) hpos
  have hlog : Real.log (∏ k, d.PyC k k) = ∑ k, Real.log (d.PyC k k) := Real.log_prod fun k _ => (hC.pos k).ne'
  unfold Spec.gaussian UCorr.like
  rw [Real.log_mul (inv_ne_zero (Real.sqrt_pos.2 hm).ne') (Real.exp_pos _).ne', Real.log_exp, Real.log_inv, Real.log_sqrt hm.le,
    Real.log_mul (pow_pos hpi _).ne' hpos.ne', Real.log_pow, hdet, Real.log_pow, hlog, hI]
  have e : ∑ i, ∑ j, d.e i * S⁻¹ i j * d.e j = d.e ⬝ᵥ S⁻¹ *ᵥ d.e := by
    simp only [dotProduct, mulVec, Finset.mul_sum, mul_assoc]
  rw [e]
  push_cast
  ring

end Ceacoest
