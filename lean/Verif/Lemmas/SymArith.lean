import Verif.Spec.SymArith
import Verif.Spec.Transcription
import Verif.Props.SymExpr

/-! # Arithmetic on expressions -/

namespace Ceacoest
open Spec

theorem Spec.SExpr.subst_ev (σ : String → Nat → SExpr) (env : Env) : ∀ e : SExpr, (e.subst σ).ev env = e.ev fun n k => (σ n k).ev env
  | .const _ => rfl
  | .var _ _ => rfl
  | .add a b => by simp only [SExpr.subst, SExpr.ev, SExpr.subst_ev σ env a, SExpr.subst_ev σ env b]
  | .mul a b => by simp only [SExpr.subst, SExpr.ev, SExpr.subst_ev σ env a, SExpr.subst_ev σ env b]
  | .inv a => by simp only [SExpr.subst, SExpr.ev, SExpr.subst_ev σ env a]
  | .sin a => by simp only [SExpr.subst, SExpr.ev, SExpr.subst_ev σ env a]
  | .cos a => by simp only [SExpr.subst, SExpr.ev, SExpr.subst_ev σ env a]
  | .exp a => by simp only [SExpr.subst, SExpr.ev, SExpr.subst_ev σ env a]
  | .log a => by simp only [SExpr.subst, SExpr.ev, SExpr.subst_ev σ env a]

theorem Spec.SExpr.subst_defined (σ : String → Nat → SExpr) (env : Env) (hσ : ∀ n k, (σ n k).Defined env) :
    ∀ e : SExpr, (e.Defined fun n k => (σ n k).ev env) → (e.subst σ).Defined env
  | .const _, _ => trivial
  | .var n k, _ => hσ n k
  | .add a b, h => ⟨SExpr.subst_defined σ env hσ a h.1, SExpr.subst_defined σ env hσ b h.2⟩
  | .mul a b, h => ⟨SExpr.subst_defined σ env hσ a h.1, SExpr.subst_defined σ env hσ b h.2⟩
  | .inv a, h => ⟨SExpr.subst_defined σ env hσ a h.1, by rw [SExpr.subst_ev]; exact h.2⟩
  | .sin a, h => SExpr.subst_defined σ env hσ a h
  | .cos a, h => SExpr.subst_defined σ env hσ a h
  | .exp a, h => SExpr.subst_defined σ env hσ a h
  | .log a, h => ⟨SExpr.subst_defined σ env hσ a h.1, by rw [SExpr.subst_ev]; exact h.2⟩

/-- The language of expressions meets the contract. -/
theorem arith_ok : ArithOK SExpr.arith SExpr.ev where
  num := fun _ _ => rfl
  sym := fun _ _ _ => rfl
  add := fun _ _ _ => rfl
  sub := fun a b env => by simp only [SExpr.arith, SExpr.ev]; ring
  mul := fun _ _ _ => rfl
  subst := fun a σ env => SExpr.subst_ev σ env a
  form := fun shape f order hf => C66_expr_form shape f hf order

section total
open SExpr

theorem total_num (r : ℝ) : (arith.num r).Total := fun _ => trivial
theorem total_sym (n : String) (k : Nat) : (arith.sym n k).Total := fun _ => trivial
theorem total_add {a b : SExpr} (ha : a.Total) (hb : b.Total) : (arith.add a b).Total := fun env => ⟨ha env, hb env⟩
theorem total_mul {a b : SExpr} (ha : a.Total) (hb : b.Total) : (arith.mul a b).Total := fun env => ⟨ha env, hb env⟩
theorem total_sub {a b : SExpr} (ha : a.Total) (hb : b.Total) : (arith.sub a b).Total := fun env => ⟨ha env, trivial, hb env⟩

theorem total_sum {l : List SExpr} (h : ∀ a ∈ l, a.Total) : (arith.sum l).Total := by
  have : ∀ (l : List SExpr) (a : SExpr), (∀ b ∈ l, b.Total) → a.Total → (l.foldl arith.add a).Total := by
    intro l
    induction l with
    | nil => exact fun _ _ h => h
    | cons b l ih => exact fun a hl ha => ih _ (fun c hc => hl c (by simp [hc])) (total_add ha (hl b (by simp)))
  exact this l _ h (total_num 0)

theorem total_dotNum {r : List ℝ} {l : List SExpr} (h : ∀ a ∈ l, a.Total) : (arith.dotNum r l).Total := by
  refine total_sum fun a ha => ?_
  obtain ⟨i, hi, rfl⟩ := List.mem_iff_getElem.1 ha
  rw [List.getElem_zipWith]
  exact total_mul (total_num _) (h _ (by simp))

theorem total_dot {k l : List SExpr} (hk : ∀ a ∈ k, a.Total) (hl : ∀ a ∈ l, a.Total) : (arith.dot k l).Total := by
  refine total_sum fun a ha => ?_
  obtain ⟨i, hi, rfl⟩ := List.mem_iff_getElem.1 ha
  rw [List.getElem_zipWith]
  exact total_mul (hk _ (by simp)) (hl _ (by simp))

theorem total_row (n : String) (c i : Nat) : ∀ a ∈ arith.row n c i, a.Total := by
  intro a ha
  obtain ⟨j, -, rfl⟩ := List.mem_map.1 ha
  exact total_sym _ _

theorem total_getD {l : List SExpr} (h : ∀ a ∈ l, a.Total) (i : Nat) : (l.getD i (arith.num 0)).Total := by
  rw [List.getD_eq_getElem?_getD]
  cases hi : l[i]? with
  | none => exact total_num 0
  | some a => exact h a (List.mem_of_getElem? hi)

end total

section defined
open SExpr
variable {env : Env}

theorem defined_sum {l : List SExpr} (h : ∀ a ∈ l, a.Defined env) : (arith.sum l).Defined env := by
  have : ∀ (l : List SExpr) (a : SExpr), (∀ b ∈ l, b.Defined env) → a.Defined env → (l.foldl arith.add a).Defined env := by
    intro l
    induction l with
    | nil => exact fun _ _ h => h
    | cons b l ih => exact fun a hl ha => ih _ (fun c hc => hl c (by simp [hc])) ⟨ha, hl b (by simp)⟩
  exact this l _ h trivial

theorem defined_dotNum {r : List ℝ} {l : List SExpr} (h : ∀ a ∈ l, a.Defined env) : (arith.dotNum r l).Defined env := by
  refine defined_sum fun a ha => ?_
  obtain ⟨i, hi, rfl⟩ := List.mem_iff_getElem.1 ha
  rw [List.getElem_zipWith]
  exact ⟨trivial, h _ (by simp)⟩

theorem defined_dot {k l : List SExpr} (hk : ∀ a ∈ k, a.Defined env) (hl : ∀ a ∈ l, a.Defined env) : (arith.dot k l).Defined env := by
  refine defined_sum fun a ha => ?_
  obtain ⟨i, hi, rfl⟩ := List.mem_iff_getElem.1 ha
  rw [List.getElem_zipWith]
  exact ⟨hk _ (by simp), hl _ (by simp)⟩

theorem defined_row (n : String) (c i : Nat) : ∀ a ∈ arith.row n c i, a.Defined env := fun a ha => total_row n c i a ha env

theorem defined_getD {l : List SExpr} (h : ∀ a ∈ l, a.Defined env) (i : Nat) : (l.getD i (arith.num 0)).Defined env := by
  rw [List.getD_eq_getElem?_getD]
  cases hi : l[i]? with
  | none => trivial
  | some a => exact h a (List.mem_of_getElem? hi)

end defined

theorem mapM_mem {α β : Type} {f : α → Py β} {l : List α} {r : List β} (h : l.mapM f = .ok r) {y : β} (hy : y ∈ r) :
    ∃ x ∈ l, f x = .ok y := by
  replace h := mapM_ok_iff.1 h
  induction h with
  | nil => cases hy
  | cons h1 _ ih =>
    rcases List.mem_cons.1 hy with rfl | hy
    · exact ⟨_, List.mem_cons_self, h1⟩
    · obtain ⟨x, hx, hx'⟩ := ih hy
      exact ⟨x, List.mem_cons_of_mem _ hx, hx'⟩

end Ceacoest
