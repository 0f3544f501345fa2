import Verif.Lemmas.ExampleScripts
import Verif.Props.Problems
import Verif.Spec.ExampleScripts

/-! # The layouts of the problems, and the places that the scripts assign -/

namespace Ceacoest.Script
open Spec

theorem mem_cols {n m k : Nat} {a b : List Nat} (hb : ∀ j ∈ b, j < m) : k ∈ selPos [n, m] [a, b] ↔ k / m ∈ a ∧ k % m ∈ b := by
  simp only [selPos, List.mem_flatMap, List.mem_map, List.prod_cons, List.prod_nil, Nat.mul_one, List.mem_range, Nat.lt_one_iff]
  constructor
  · rintro ⟨i, hi, x, ⟨j, hj, y, rfl, rfl⟩, rfl⟩
    have := hb j hj
    have h1 : (i * m + (j + 0)) / m = i := by
      rw [Nat.add_zero, Nat.mul_comm, Nat.mul_add_div (by omega), Nat.div_eq_of_lt this, Nat.add_zero]
    have h2 : (i * m + (j + 0)) % m = j := by
      rw [Nat.add_zero, Nat.mul_comm, Nat.mul_add_mod, Nat.mod_eq_of_lt this]
    rw [h1, h2]
    exact ⟨hi, hj⟩
  · rintro ⟨h1, h2⟩
    exact ⟨_, h1, _, ⟨_, h2, 0, rfl, rfl⟩, by rw [Nat.add_zero, Nat.mul_comm]; exact Nat.div_add_mod _ _⟩

theorem mem_rows {n m k : Nat} (hm : 0 < m) {a : List Nat} : k ∈ selPos [n, m] [a] ↔ k / m ∈ a := by
  simp only [selPos, List.mem_flatMap, List.mem_map, List.prod_cons, List.prod_nil, Nat.mul_one, List.mem_range]
  constructor
  · rintro ⟨i, hi, j, hj, rfl⟩
    rwa [Nat.mul_comm, Nat.mul_add_div hm, Nat.div_eq_of_lt hj, Nat.add_zero]
  · intro h
    exact ⟨_, h, k % m, Nat.mod_lt _ hm, by rw [Nat.mul_comm]; exact Nat.div_add_mod _ _⟩

theorem mem_one {n k : Nat} {a : List Nat} : k ∈ selPos [n] [a] ↔ k ∈ a := by
  simp only [selPos, List.mem_flatMap, List.mem_map, List.prod_nil, Nat.mul_one, List.mem_range, Nat.lt_one_iff]
  constructor
  · rintro ⟨i, hi, _, rfl, rfl⟩
    simpa using hi
  · intro h
    exact ⟨k, h, 0, rfl, rfl⟩

theorem dep_unpack {p : Problem ℝ} (h : ∀ kv ∈ p.remapped, VarOK p.ndec kv.2) (d : List EReal) (hd : d.length = p.ndec) :
    ∀ kv ∈ p.remapped, ∃ a, kv.2.unpackFrom d = .ok a := by
  intro kv hkv
  exact ⟨_, ((h kv hkv).gathers (α := EReal)).unpack d hd⟩

theorem oc_layout {m : OCModel} {t : NDArray ℝ} {P N : Nat} {q : ColProblem} (hN : (N : Int) + 1 = m.collocationOrder) (hN1 : 1 ≤ N) (hP : 1 ≤ P)
    (hs : t.shape = [P + 1]) (hw : t.WF) (hinc : t.data.Pairwise (· < ·)) (hq : ocProblem m t = .ok q) :
    LayoutOK q.prob ∧ q.prob.decision = [("x", ⟨[P * N + 1, m.nx], 0⟩), ("u", ⟨[P * N + 1, m.nu], (P * N + 1) * m.nx⟩),
        ("p", ⟨[m.np], (P * N + 1) * (m.nx + m.nu)⟩)] ∧ q.prob.ndec = (P * N + 1) * (m.nx + m.nu) + m.np := by
  obtain ⟨q', N', h1, h2, -, -, h5, -, -, h8, h9, h10, -, -, -, -, hok⟩ := C21_oc m (by omega) t P hs hw hinc
  obtain rfl : q' = q := Except.ok.inj (h1.symm.trans hq)
  obtain rfl : N' = N := by omega
  rw [h5] at h8 h9 h10
  refine ⟨⟨?_, ?_, dep_unpack (hok hP).dep⟩, h8, h9⟩
  · rw [h8, h10]
    simp [Dict.keys]
  · intro name c hc
    rw [h8] at hc
    rw [h9]
    simp only [List.mem_cons, Prod.mk.injEq, List.not_mem_nil, or_false] at hc
    rcases hc with ⟨-, rfl⟩ | ⟨-, rfl⟩ | ⟨-, rfl⟩ <;> simp [Component.size] <;> nlinarith

theorem oem_layout {m : OEMModel} {t : NDArray ℝ} {y : MaskedArray} {u : UArg} {ua : NDArray ℝ} {P N : Nat} {q : OEMProblem}
    (hN : (N : Int) + 1 = m.collocationOrder) (h : OEMInput m t y P) (hu : InputsOK m t u ua) (hq : oemProblem ColProblem.initVars m t y u = .ok q) :
    LayoutOK q.prob ∧ q.prob.decision = [("x", ⟨[P * N + 1, m.nx], 0⟩), ("p", ⟨[m.np], (P * N + 1) * m.nx⟩)] ∧
      q.prob.ndec = (P * N + 1) * m.nx + m.np := by
  obtain ⟨q', N', h1, h2, -, -, h5, -, -, h8, h9, h10, -, -, -, -, hok⟩ := C21_oem m t y u ua P h hu
  obtain rfl : q' = q := Except.ok.inj (h1.symm.trans hq)
  obtain rfl : N' = N := by omega
  rw [h5] at h8 h9 h10
  refine ⟨⟨?_, ?_, dep_unpack hok.dep⟩, h8, h9⟩
  · rw [h8, h10]
    simp [Dict.keys]
  · intro name c hc
    rw [h8] at hc
    rw [h9]
    simp only [List.mem_cons, Prod.mk.injEq, List.not_mem_nil, or_false] at hc
    rcases hc with ⟨-, rfl⟩ | ⟨-, rfl⟩ <;> simp [Component.size]

theorem jme_layout {m : JMEModel} {t : NDArray ℝ} {y : MaskedArray} {u : UArg} {ua : NDArray ℝ} {P N : Nat} {q : OEMProblem}
    (hN : (N : Int) + 1 = m.collocationOrder) (h : OEMInput m.toOEMModel t y P) (hu : InputsOK m.toOEMModel t u ua)
    (hpen : m.usePenalty = some true → m.penalty ≠ none) (hq : jmeProblem m t y u = .ok q) :
    LayoutOK q.prob ∧ q.prob.decision = [("x", ⟨[P * N + 1, m.nx], 0⟩), ("wc", ⟨[P, N, m.nw], (P * N + 1) * m.nx⟩),
        ("p", ⟨[m.np], (P * N + 1) * m.nx + P * N * m.nw⟩)] ∧ q.prob.ndec = (P * N + 1) * m.nx + P * N * m.nw + m.np := by
  obtain ⟨q', N', h1, h2, -, -, h5, -, -, h8, h9, h10, -, -, -, -, hok⟩ := C21_jme m t y u ua P h hu hpen
  obtain rfl : q' = q := Except.ok.inj (h1.symm.trans hq)
  obtain rfl : N' = N := by omega
  rw [h5] at h8 h9 h10
  refine ⟨⟨?_, ?_, dep_unpack hok.dep⟩, h8, h9⟩
  · rw [h8, h10]
    simp [Dict.keys]
  · intro name c hc
    rw [h8] at hc
    rw [h9]
    simp only [List.mem_cons, Prod.mk.injEq, List.not_mem_nil, or_false] at hc
    rcases hc with ⟨-, rfl⟩ | ⟨-, rfl⟩ | ⟨-, rfl⟩ <;> simp [Component.size, Nat.mul_assoc, Nat.add_assoc]

end Ceacoest.Script
