import Verif.Spec.Classes
import Verif.Props.Variables
import Verif.Lemmas.Gradient

/-! # Registration of functions of variables of a table -/

namespace Ceacoest
open Spec

/-! ### Broadcasting of extensions that are absent or equal -/

theorem bcDim_eq {l : List Nat} {n : Nat} (h : ∀ a ∈ l, a = 1 ∨ a = n) (hn : n = 1 ∨ n ∈ l) : bcDim l = some n := by
  unfold bcDim
  have hf : ∀ a ∈ l.filter (· ≠ 1), a = n := by
    intro a ha
    simp only [List.mem_filter, decide_eq_true_eq] at ha
    exact (h a ha.1).resolve_left ha.2
  cases hl : l.filter (· ≠ 1) with
  | nil =>
    simp only
    rcases hn with rfl | hn
    · rfl
    · by_cases h1 : n = 1
      · rw [h1]
      · have : n ∈ l.filter (· ≠ 1) := List.mem_filter.2 ⟨hn, by simpa using h1⟩
        rw [hl] at this
        exact absurd this (by simp)
  | cons d ds =>
    rw [hl] at hf
    have hd := hf d (by simp)
    simp only
    rw [if_pos, hd]
    rw [List.all_eq_true]
    intro a ha
    simp [hf a (by simp [ha]), hd]

theorem foldl_max_le {l : List Nat} {a b : Nat} (h : ∀ x ∈ l, x ≤ b) (ha : a ≤ b) : l.foldl max a ≤ b := by
  induction l generalizing a with
  | nil => exact ha
  | cons x l ih => exact ih (fun y hy => h y (by simp [hy])) (max_le ha (h x (by simp)))

theorem bcShapes_eq {l : List (List Nat)} {E : List Nat} (hE : E.length ≤ 1) (h : ∀ s ∈ l, s = [] ∨ s = E) (hm : E = [] ∨ E ∈ l) :
    bcShapes l = some E := by
  have hlen : (l.map List.length).foldl max 0 = E.length := by
    refine le_antisymm (foldl_max_le ?_ (by omega)) ?_
    · intro x hx
      obtain ⟨s, hs, rfl⟩ := List.mem_map.1 hx
      rcases h s hs with rfl | rfl <;> simp
    · rcases hm with rfl | hm
      · simp
      · exact (le_foldl_max _ _).2 _ (List.mem_map.2 ⟨E, hm, rfl⟩)
  unfold bcShapes
  simp only
  rw [hlen]
  rcases E with _ | ⟨n, _ | ⟨_, _⟩⟩
  · rfl
  · have hd : bcDim (l.map fun s => (List.replicate (1 - s.length) 1 ++ s).getD 0 1) = some n := by
      refine bcDim_eq ?_ (Or.inr ?_)
      · intro a ha
        obtain ⟨s, hs, rfl⟩ := List.mem_map.1 ha
        rcases h s hs with rfl | rfl <;> simp
      · exact List.mem_map.2 ⟨[n], hm.resolve_left (by simp), by simp⟩
    simp only [List.length_singleton, List.range_succ, List.range_zero, List.nil_append, List.mapM_cons, List.mapM_nil]
    rw [hd]
    rfl
  · simp at hE

theorem bcIdx_nil (E : List Nat) {e : Nat} (he : e < E.prod) : bcIdx [] E e = 0 := by
  have := bcIdx_suffix (ext := []) (pre := E) (suf := []) (k := 0) rfl (by simp) (by simp) he
  simpa [Nat.mod_one] using this

/-! ### Entries of a table -/

/-- The variable `n` of the problem is what the table says, and the decision entries of the base value for one element of `E` are
distinct and lie between `lo` and `hi`. -/
def VarEntry (p : Problem ℝ) (T : Table) (E : List Nat) (n : String) (lo hi : Nat) : Prop :=
  ∃ v, p.variableSpec n = .ok v ∧ v.shape = T.ext n ++ T.bs n ∧ ∀ e < E.prod, ∃ c : Nat → Nat,
    (∀ k < (T.bs n).prod, v.convertInd (bcIdx (T.ext n) E e * (T.bs n).prod + k) = .ok (c k) ∧ lo ≤ c k ∧ c k < hi) ∧
    ∀ k < (T.bs n).prod, ∀ k' < (T.bs n).prod, c k = c k' → k = k'

/-- The constant `n` of the problem is what the table says. -/
def ConstEntry (p : Problem ℝ) (T : Table) (n : String) : Prop :=
  p.variableSpec n = .error .valueError ∧ ∃ a, Dict.get? p.extra n = some a ∧ a.WF ∧ a.shape = T.ext n ++ T.bs n

/-- Variables that can be used together: every one is an entry of the table, and different ones use disjoint parts of the decision
vector. -/
structure Usable (p : Problem ℝ) (T : Table) (E : List Nat) (names : List String) (lo hi : String → Nat) : Prop where
  vars : ∀ n ∈ names, T.var n = true → VarEntry p T E n (lo n) (hi n)
  consts : ∀ n ∈ names, T.var n = false → ConstEntry p T n
  disj : ∀ n ∈ names, ∀ n' ∈ names, n ≠ n' → T.var n = true → T.var n' = true → hi n ≤ lo n' ∨ hi n' ≤ lo n
  ext : ∀ n ∈ names, T.ext n = [] ∨ T.ext n = E
  short : E.length ≤ 1

theorem Table.reg_E (T : Table) (o : OptFun ℝ) {E : List Nat} (h : o.shape = E ++ o.fn.outShape) : (T.reg o).E = E := by
  simp [Table.reg, h]

theorem getD_mem' {l : List String} {j : Nat} (h : j < l.length) : l.getD j "" ∈ l := by
  rw [List.getD_eq_getElem?_getD, List.getElem?_eq_getElem h]
  simp

theorem Usable.registered {p : Problem ℝ} {T : Table} {E : List Nat} {names : List String} {lo hi : String → Nat}
    (h : Usable p T E names lo hi) (o : OptFun ℝ) (made : ∃ args, o = OptFun.mk' o.shape o.fn args) (sig : o.fn.argNames.Nodup)
    (nargs : o.args.length = o.fn.argNames.length) (nodup : o.args.Nodup) (hsub : ∀ n ∈ o.args, n ∈ names)
    (hE : o.shape = E ++ o.fn.outShape) (hex : E = [] ∨ ∃ n ∈ o.args, T.ext n = E) : Registered p o (T.reg o) where
  made := made
  sig := sig
  nargs := nargs
  args := nodup
  vars := fun j hj hv => by
    obtain ⟨v, h1, h2, -⟩ := h.vars _ (hsub _ (getD_mem' (nargs ▸ hj))) hv
    exact ⟨v, h1, h2⟩
  consts := fun j hj hv => h.consts _ (hsub _ (getD_mem' (nargs ▸ hj))) hv
  bc := by
    rw [Table.reg_E T o hE]
    refine bcShapes_eq h.short ?_ ?_
    · intro s hs
      obtain ⟨j, hj, rfl⟩ := List.mem_map.1 hs
      exact h.ext _ (hsub _ (getD_mem' (nargs ▸ List.mem_range.1 hj)))
    · refine hex.imp id fun ⟨n, hn, he⟩ => ?_
      obtain ⟨j, hj, rfl⟩ := List.mem_iff_getElem.1 hn
      refine List.mem_map.2 ⟨j, List.mem_range.2 (nargs ▸ hj), ?_⟩
      simp only [Table.reg]
      rw [List.getD_eq_getElem?_getD, List.getElem?_eq_getElem hj]
      exact he
  shape := by rw [Table.reg_E T o hE]; exact hE
  suffix := fun j hj _ => by
    rw [Table.reg_E T o hE]
    rcases h.ext _ (hsub _ (getD_mem' (nargs ▸ hj))) with h1 | h1
    · exact ⟨0, E, [], by simpa [Table.reg] using h1, by simp⟩
    · exact ⟨0, [], E, by simpa [Table.reg] using h1, by simp⟩

theorem Usable.noAlias {p : Problem ℝ} {T : Table} {E : List Nat} {names : List String} {lo hi : String → Nat}
    (h : Usable p T E names lo hi) (o : OptFun ℝ) (nargs : o.args.length = o.fn.argNames.length) (nodup : o.args.Nodup)
    (hsub : ∀ n ∈ o.args, n ∈ names) (hE : o.shape = E ++ o.fn.outShape) : NoAlias p o (T.reg o) := by
  intro e he j hj j' hj' hv hv' k hk k' hk' v v' hs hs' heq
  rw [Table.reg_E T o hE] at he heq
  have m1 := getD_mem' (nargs ▸ hj)
  have m2 := getD_mem' (nargs ▸ hj')
  obtain ⟨w, w1, -, w3⟩ := h.vars _ (hsub _ m1) hv
  obtain ⟨w', w1', -, w3'⟩ := h.vars _ (hsub _ m2) hv'
  obtain rfl : w = v := Except.ok.inj (w1.symm.trans hs)
  obtain rfl : w' = v' := Except.ok.inj (w1'.symm.trans hs')
  obtain ⟨c, c1, c2⟩ := w3 e he
  obtain ⟨c', c1', c2'⟩ := w3' e he
  have a := c1 k hk
  have b := c1' k' hk'
  have hcc : c k = c' k' := Except.ok.inj (a.1.symm.trans (heq.trans b.1))
  by_cases hj2 : j = j'
  · subst hj2
    obtain rfl : w = w' := Except.ok.inj (w1.symm.trans w1')
    refine ⟨rfl, c2 k hk k' hk' ?_⟩
    have := c1 k' hk'
    rw [hcc]
    exact Except.ok.inj (b.1.symm.trans this.1)
  · exfalso
    have hne : o.args.getD j "" ≠ o.args.getD j' "" := by
      rw [List.getD_eq_getElem?_getD, List.getD_eq_getElem?_getD, List.getElem?_eq_getElem (nargs ▸ hj),
        List.getElem?_eq_getElem (nargs ▸ hj')]
      simp only [Option.getD_some]
      exact fun h => hj2 ((List.Nodup.getElem_inj_iff nodup).1 h)
    rcases h.disj _ (hsub _ m1) _ (hsub _ m2) hne hv hv' with h1 | h1 <;> omega

/-! ### The variables of the classes -/

section entries
variable {p : Problem ℝ} {T : Table} {n : String}

/-- A decision variable with one base value for every element of the extension. -/
theorem entry_comp {N off : Nat} (h : p.variableSpec n = .ok (.comp ⟨N :: T.bs n, off⟩)) (he : T.ext n = [N]) :
    VarEntry p T [N] n off (off + N * (T.bs n).prod) := by
  refine ⟨_, h, by rw [he]; rfl, fun e hlt => ⟨fun k => e * (T.bs n).prod + k + off, fun k hk => ?_, fun k _ k' _ hkk => by dsimp only at hkk; omega⟩⟩
  have hlt' : e < N := by simpa using hlt
  rw [he, bcIdx_self [N] hlt]
  have := mul_add_lt hlt' hk
  exact ⟨rfl, by dsimp only; omega, by dsimp only; omega⟩

/-- A decision variable with a single base value. -/
theorem entry_single {E : List Nat} {off : Nat} (h : p.variableSpec n = .ok (.comp ⟨T.bs n, off⟩)) (he : T.ext n = []) :
    VarEntry p T E n off (off + (T.bs n).prod) := by
  refine ⟨_, h, by rw [he]; rfl, fun e hlt => ⟨fun k => k + off, fun k hk => ?_, fun k _ k' _ hkk => by dsimp only at hkk; omega⟩⟩
  rw [he, bcIdx_nil E hlt]
  simp only [Nat.zero_mul, Nat.zero_add]
  exact ⟨rfl, by omega, by omega⟩

/-- Piece-ravelled variables. -/
theorem entry_piece {P N w off : Nat} (h : p.variableSpec n = .ok (.piece ⟨⟨[P * N + 1, w], off⟩, P, N + 1⟩)) (he : T.ext n = [P])
    (hb : T.bs n = [N + 1, w]) : VarEntry p T [P] n off (off + (P * N + 1) * w) := by
  refine ⟨_, h, by rw [he, hb]; rfl, fun e hlt => ⟨fun k => off + (e * N * w + k), fun k hk => ?_, fun k _ k' _ hkk => by dsimp only at hkk; omega⟩⟩
  have hlt' : e < P := by simpa using hlt
  rw [he, bcIdx_self [P] hlt, hb] at *
  have hp : [N + 1, w].prod = (N + 1) * w := by simp
  rw [hp] at hk ⊢
  have hw : 0 < w := Nat.pos_of_ne_zero fun h => by simp [h] at hk
  have hc : k / w < N + 1 := Nat.div_lt_of_lt_mul (by rw [Nat.mul_comm]; exact hk)
  have hr : k % w < w := Nat.mod_lt _ hw
  obtain ⟨a, -, b⟩ := C16_piece_convertInd off P N [w] e (k / w) (k % w) hlt' hc (by simpa using hr)
  have hd := Nat.div_add_mod k w
  have e1 : (e * (N + 1) + k / w) * [w].prod + k % w = e * ((N + 1) * w) + k := by
    simp only [List.prod_singleton]
    nlinarith
  have e2 : (e * N + k / w) * [w].prod + k % w = e * N * w + k := by
    simp only [List.prod_singleton]
    nlinarith
  rw [e1, e2] at a
  rw [e2] at b
  exact ⟨congrArg Except.ok a, by dsimp only; omega, by simpa using b⟩

/-- Endpoint states. -/
theorem entry_xe {E : List Nat} {M w off : Nat} (hM : 2 ≤ M) (h : p.variableSpec n = .ok (.xe ⟨⟨[M, w], off⟩⟩)) (he : T.ext n = [])
    (hb : T.bs n = [2, w]) : VarEntry p T E n off (off + M * w) := by
  refine ⟨_, h, by rw [he, hb]; rfl, fun e hlt => ⟨fun k => if k < w then off + k else off + ((M - 1) * w + (k - w)), fun k hk => ?_,
    fun k hk k' hk' hkk => ?_⟩⟩
  · rw [he, bcIdx_nil E hlt, hb] at *
    have hp : [2, w].prod = 2 * w := by simp
    rw [hp] at hk
    simp only [Nat.zero_mul, Nat.zero_add]
    have e2 : (M - 1) * w + w = M * w := by
      obtain ⟨q, rfl⟩ : ∃ q, M = q + 1 := ⟨M - 1, by omega⟩
      simp only [Nat.add_sub_cancel]; ring
    have e3 : w ≤ (M - 1) * w := Nat.le_mul_of_pos_left w (by omega)
    split
    · next hkw => exact ⟨(C17_xe_convertInd off M w hM k hkw).1, by omega, by omega⟩
    · next hkw =>
      have := (C17_xe_convertInd off M w hM (k - w) (by omega)).2
      rw [show w + (k - w) = k by omega] at this
      exact ⟨this, by omega, by omega⟩
  · rw [hb] at hk hk'
    have hp : [2, w].prod = 2 * w := by simp
    rw [hp] at hk hk'
    have e3 : w ≤ (M - 1) * w := Nat.le_mul_of_pos_left w (by omega)
    dsimp only at hkk
    split_ifs at hkk <;> omega

/-- States at the measurements. -/
theorem entry_xm {M w off : Nat} {K : List Nat} (hK : ∀ a ∈ K, a < M) (h : p.variableSpec n = .ok (.xm ⟨⟨[M, w], off⟩, K⟩))
    (he : T.ext n = [K.length]) (hb : T.bs n = [w]) : VarEntry p T [K.length] n off (off + M * w) := by
  refine ⟨_, h, by rw [he, hb]; rfl, fun e hlt => ?_⟩
  have hlt' : e < K.length := by simpa using hlt
  refine ⟨fun k => off + (K[e] * w + k), fun k hk => ?_, fun k _ k' _ hkk => by dsimp only at hkk; omega⟩
  rw [he, bcIdx_self [K.length] hlt, hb] at *
  simp only [List.prod_singleton] at hk ⊢
  have := mul_add_lt (hK K[e] (by simp)) hk
  exact ⟨C18_xm_convertInd off M w K hK e hlt' k hk, by omega, by omega⟩

end entries

end Ceacoest
