import Verif.Lemmas.Classes
import Verif.Props.Problems
import Verif.Props.SymContract

/-!
# C67: the derivatives of optimal control, output error and joint MAP problems

The functions of the model are generated from symbolic functions (C66) with arguments from the documented ones.  The variables with
which the constructors register them fit, so the derivatives of the whole problem are right.
-/

namespace Ceacoest
open Spec RK
variable {X : Type}

/-- The symbolic model: shapes and decision variables, and the function of every name. -/
structure SymSide (X : Type) where
  S : Sym2Num X
  ev : X → Env → ℝ
  shape : String → List Nat
  decision : List String
  fn : String → SymFn X
  s : SymFn X → Sym

/-- The generated function `g` comes from the symbolic function of its name, takes arguments out of `names`, at least one of them out of
`some`, and has values of shape `out`. -/
structure Fits (M : SymSide X) (objective : Bool) (g : GenFun ℝ) (names some : List String) (out : List Nat) : Prop where
  meets : Meets M.S M.ev M.shape M.decision (M.fn g.name) objective g (M.s (M.fn g.name))
  nodup : g.argNames.Nodup
  names : ∀ n ∈ g.argNames, n ∈ names
  some : ∃ n ∈ g.argNames, n ∈ some
  out : g.outShape = out

/-- The symbolic derivatives of all functions of the problem are right where the problem evaluates them. -/
def SmoothProblem (M : SymSide X) (T : Table) (p : Problem ℝ) (dvec : List ℝ) : Prop :=
  ∀ vs, p.variables dvec = .ok vs →
    (∀ o ∈ p.objectives, ∀ e < (T.reg o).E.prod, SmoothAt M.S M.ev M.shape (M.fn o.fn.name) (T.reg o).var (baseArgs o (T.reg o) vs e)) ∧
    (∀ c ∈ p.constraints, ∀ e < (T.reg c.fn).E.prod,
      SmoothAt M.S M.ev M.shape (M.fn c.fn.fn.name) (T.reg c.fn).var (baseArgs c.fn (T.reg c.fn) vs e))

/-- The symbolic model agrees with the table on `names`. -/
def AgreesOn (M : SymSide X) (T : Table) (names : List String) : Prop :=
  ∀ n ∈ names, M.shape n = T.bs n ∧ (T.var n = true ↔ n ∈ M.decision)

theorem AgreesOn.mono {M : SymSide X} {T : Table} {l l' : List String} (h : AgreesOn M T l') (hl : ∀ n ∈ l, n ∈ l') :
    AgreesOn M T l := fun n hn => h n (hl n hn)

theorem Usable.used {M : SymSide X} {p : Problem ℝ} {T : Table} {E : List Nat} {names some : List String} {lo hi : String → Nat}
    (h : Usable p T E names lo hi) {objective : Bool} {g : GenFun ℝ} {out sh : List Nat} (hg : Fits M objective g names some out)
    (ha : AgreesOn M T names) (hsh : sh = E ++ out) (hsome : E = [] ∨ ∀ n ∈ some, T.ext n = E) :
    Used M.S M.ev M.shape M.decision p (OptFun.mk' sh g none) (M.fn g.name) objective (M.s (M.fn g.name))
      (T.reg (OptFun.mk' sh g none)) where
  meets := hg.meets
  reg := h.registered _ ⟨_, rfl⟩ hg.nodup rfl hg.nodup hg.names (by rw [hsh, ← hg.out]; rfl)
    (hsome.imp id fun hs => by
      obtain ⟨n, hn, hn'⟩ := hg.some
      exact ⟨n, hn, hs n hn'⟩)
  agrees := fun j hj => by
    rw [← hg.meets.args] at hj ⊢
    have := ha _ (hg.names _ (getD_mem' hj))
    exact ⟨this.1.symm, this.2⟩
  noAlias := h.noAlias _ rfl hg.nodup hg.names (by rw [hsh, ← hg.out]; rfl)

/-- All functions of the problem are used in agreement with the symbolic model and the table. -/
def UsedIn (M : SymSide X) (T : Table) (p : Problem ℝ) : Prop :=
  (∃ calls, ProblemOK p calls) ∧
    (∀ o ∈ p.objectives, Used M.S M.ev M.shape M.decision p o (M.fn o.fn.name) true (M.s (M.fn o.fn.name)) (T.reg o)) ∧
    ∀ c ∈ p.constraints, Used M.S M.ev M.shape M.decision p c.fn (M.fn c.fn.fn.name) false (M.s (M.fn c.fn.fn.name)) (T.reg c.fn)

theorem UsedIn.right {M : SymSide X} {T : Table} {p : Problem ℝ} (h : UsedIn M T p) {dvec : List ℝ} (hl : dvec.length = p.ndec)
    (hsm : SmoothProblem M T p dvec) : DerivativesRight p dvec := by
  obtain ⟨⟨calls, hok⟩, ho, hc⟩ := h
  obtain ⟨vs, hvs, -, -⟩ := variables_eq hok dvec hl
  obtain ⟨h1, h2⟩ := hsm vs hvs
  exact C66_problem M.S M.ev M.shape M.decision p _ hok M.s (fun o => M.fn o.fn.name) T.reg ho hc dvec hl vs hvs h1 h2

/-- The names of the decision variables of an optimal control problem. -/
def ocNames : List String := ["x", "u", "p", "xp", "up", "xe", "piece_len"]

/-- How an optimal control problem uses its functions. -/
theorem oc_used (M : SymSide X) (m : OCModel) (t : NDArray ℝ) (P N : Nat) (hn : 2 ≤ m.collocationOrder)
    (hN : (N : Int) + 1 = m.collocationOrder) (hP : 1 ≤ P) (hs : t.shape = [P + 1]) (hw : t.WF) (hinc : t.data.Pairwise (· < ·))
    (hM : AgreesOn M (ocTable P N m.nx m.nu m.np) ocNames)
    (he : Fits M false m.e ["xp", "up", "p", "piece_len"] ["xp", "up", "piece_len"] [N, m.nx])
    (hIL : Fits M true m.IL ["xp", "up", "p", "piece_len"] ["xp", "up", "piece_len"] [])
    (hMayer : Fits M true m.M ["xe", "p"] ["xe", "p"] []) (hg : Fits M false m.g ["x", "u", "p"] ["x", "u"] [m.ng])
    (hh : Fits M false m.h ["xe", "p"] ["xe", "p"] [m.nh]) :
    ∃ q, ocProblem m t = .ok q ∧ q.prob.ndec = (P * N + 1) * (m.nx + m.nu) + m.np ∧ UsedIn M (ocTable P N m.nx m.nu m.np) q.prob := by
  obtain ⟨q, N', hq, hN', -, -, hnp, -, -, hdec, hndec, hrem, hcon, -, hobj, hext, hok⟩ := C21_oc m hn t P hs hw hinc
  obtain rfl : N' = N := by omega
  rw [hnp] at hdec hndec hrem hcon
  refine ⟨q, hq, hndec, ?_⟩
  have hN1 : 1 ≤ N' := by omega
  have hPN : 2 ≤ P * N' + 1 := by have := Nat.mul_le_mul hP hN1; omega
  set T := ocTable P N' m.nx m.nu m.np with hT
  have sx : q.prob.variableSpec "x" = .ok (.comp ⟨[P * N' + 1, m.nx], 0⟩) := by simp only [Problem.variableSpec, hdec]; rfl
  have su : q.prob.variableSpec "u" = .ok (.comp ⟨[P * N' + 1, m.nu], (P * N' + 1) * m.nx⟩) := by
    simp only [Problem.variableSpec, hdec]; rfl
  have sp : q.prob.variableSpec "p" = .ok (.comp ⟨[m.np], (P * N' + 1) * (m.nx + m.nu)⟩) := by
    simp only [Problem.variableSpec, hdec]; rfl
  have sxp : q.prob.variableSpec "xp" = .ok (.piece ⟨⟨[P * N' + 1, m.nx], 0⟩, P, N' + 1⟩) := by
    simp only [Problem.variableSpec, hdec, hrem]; rfl
  have sup : q.prob.variableSpec "up" = .ok (.piece ⟨⟨[P * N' + 1, m.nu], (P * N' + 1) * m.nx⟩, P, N' + 1⟩) := by
    simp only [Problem.variableSpec, hdec, hrem]; rfl
  have sxe : q.prob.variableSpec "xe" = .ok (.xe ⟨⟨[P * N' + 1, m.nx], 0⟩⟩) := by
    simp only [Problem.variableSpec, hdec, hrem]; rfl
  have spl : q.prob.variableSpec "piece_len" = .error .valueError := by
    simp only [Problem.variableSpec, hdec, hrem]; rfl
  have cpl : ConstEntry q.prob T "piece_len" := by
    refine ⟨spl, ⟨[P], diff t.data⟩, by rw [hext]; rfl, ?_, rfl⟩
    have : t.data.length = P + 1 := by simpa [NDArray.WF, hs] using hw
    simp [NDArray.WF, diff, this]
  let lo : String → Nat := fun n => if n ∈ ["x", "xp", "xe"] then 0 else if n ∈ ["u", "up"] then (P * N' + 1) * m.nx else
    (P * N' + 1) * (m.nx + m.nu)
  let hi : String → Nat := fun n => if n ∈ ["x", "xp", "xe"] then (P * N' + 1) * m.nx else
    if n ∈ ["u", "up"] then (P * N' + 1) * m.nx + (P * N' + 1) * m.nu else (P * N' + 1) * (m.nx + m.nu) + m.np
  have hmul : (P * N' + 1) * (m.nx + m.nu) = (P * N' + 1) * m.nx + (P * N' + 1) * m.nu := Nat.mul_add _ _ _
  have ep : ∀ E, VarEntry q.prob T E "p" (lo "p") (hi "p") := fun E => by simpa [lo, hi, T, ocTable] using entry_single (T := T) (E := E) sp rfl
  have U1 : Usable q.prob T [P] ["xp", "up", "p", "piece_len"] lo hi := by
    refine ⟨?_, ?_, ?_, ?_, by simp⟩
    · intro n h hv
      simp only [List.mem_cons, List.not_mem_nil, or_false] at h
      rcases h with rfl | rfl | rfl | rfl
      · simpa [lo, hi] using entry_piece (T := T) sxp rfl rfl
      · simpa [lo, hi] using entry_piece (T := T) sup rfl rfl
      · exact ep _
      · simp [T, ocTable] at hv
    · intro n h hv
      simp only [List.mem_cons, List.not_mem_nil, or_false] at h
      rcases h with rfl | rfl | rfl | rfl <;> first | exact cpl | simp [T, ocTable] at hv
    · intro n h n' h' hne hv hv'
      simp only [List.mem_cons, List.not_mem_nil, or_false] at h h'
      rcases h with rfl | rfl | rfl | rfl <;> rcases h' with rfl | rfl | rfl | rfl <;>
        first | exact absurd rfl hne | (simp [T, ocTable] at hv; done) | (simp [T, ocTable] at hv'; done) | (simp [lo, hi, hmul]; done)
    · simp [T, ocTable]
  have U2 : Usable q.prob T [P * N' + 1] ["x", "u", "p"] lo hi := by
    refine ⟨?_, ?_, ?_, ?_, by simp⟩
    · intro n h hv
      simp only [List.mem_cons, List.not_mem_nil, or_false] at h
      rcases h with rfl | rfl | rfl
      · simpa [lo, hi, T, ocTable] using entry_comp (T := T) sx rfl
      · simpa [lo, hi, T, ocTable] using entry_comp (T := T) su rfl
      · exact ep _
    · intro n h hv
      simp only [List.mem_cons, List.not_mem_nil, or_false] at h
      rcases h with rfl | rfl | rfl <;> simp [T, ocTable] at hv
    · intro n h n' h' hne hv hv'
      simp only [List.mem_cons, List.not_mem_nil, or_false] at h h'
      rcases h with rfl | rfl | rfl <;> rcases h' with rfl | rfl | rfl <;>
        first | exact absurd rfl hne | (simp [lo, hi, hmul])
    · simp [T, ocTable]
  have U3 : Usable q.prob T [] ["xe", "p"] lo hi := by
    refine ⟨?_, ?_, ?_, ?_, by simp⟩
    · intro n h hv
      simp only [List.mem_cons, List.not_mem_nil, or_false] at h
      rcases h with rfl | rfl
      · simpa [lo, hi] using entry_xe (T := T) hPN sxe rfl rfl
      · exact ep _
    · intro n h hv
      simp only [List.mem_cons, List.not_mem_nil, or_false] at h
      rcases h with rfl | rfl <;> simp [T, ocTable] at hv
    · intro n h n' h' hne hv hv'
      simp only [List.mem_cons, List.not_mem_nil, or_false] at h h'
      rcases h with rfl | rfl <;> rcases h' with rfl | rfl <;>
        first | exact absurd rfl hne | (simp [lo, hi, hmul])
    · simp [T, ocTable]
  refine ⟨⟨_, hok hP⟩, ?_, ?_⟩
  · rw [hobj]
    intro o ho
    simp only [List.mem_cons, List.not_mem_nil, or_false] at ho
    rcases ho with rfl | rfl
    · exact U1.used hIL (hM.mono (by decide)) (by simp) (Or.inr (by simp [T, ocTable]))
    · exact U3.used hMayer (hM.mono (by decide)) (by simp) (Or.inl rfl)
  · rw [hcon]
    intro o ho
    simp only [List.mem_cons, List.not_mem_nil, or_false] at ho
    rcases ho with rfl | rfl | rfl
    · exact U1.used he (hM.mono (by decide)) (by simp) (Or.inr (by simp [T, ocTable]))
    · exact U2.used hg (hM.mono (by decide)) (by simp) (Or.inr (by simp [T, ocTable]))
    · exact U3.used hh (hM.mono (by decide)) (by simp) (Or.inl rfl)


/-- The names of the arguments of the functions of output error models, and of the variables they are given. -/
def oemNames : List String := ["y", "x", "u", "p", "xp", "up", "piece_len"]

/-- The measurement log-likelihood: registered with the states and inputs at the measurements in place of those of all points. -/
structure FitsL (M : SymSide X) (g : GenFun ℝ) : Prop where
  meets : Meets M.S M.ev M.shape M.decision (M.fn g.name) true g (M.s (M.fn g.name))
  args : g.argNames = ["y", "x", "u", "p"]
  out : g.outShape = []

theorem Usable.usedL {M : SymSide X} {p : Problem ℝ} {T : Table} {K : Nat} {lo hi : String → Nat}
    (h : Usable p T [K] ["y", "xm", "um", "p"] lo hi) {g : GenFun ℝ} (hg : FitsL M g) (hK : T.ext "y" = [K])
    (ha : AgreesOn M T ["y", "x", "u", "p"]) (hx : T.bs "xm" = T.bs "x") (hx' : T.var "xm" = T.var "x") (hu : T.bs "um" = T.bs "u")
    (hu' : T.var "um" = T.var "u") :
    Used M.S M.ev M.shape M.decision p (OptFun.mk' [K] g (some ["y", "xm", "um", "p"])) (M.fn g.name) true (M.s (M.fn g.name))
      (T.reg (OptFun.mk' [K] g (some ["y", "xm", "um", "p"]))) where
  meets := hg.meets
  reg := h.registered _ ⟨_, rfl⟩ (by change g.argNames.Nodup; rw [hg.args]; decide)
    (by change 4 = g.argNames.length; rw [hg.args]; rfl) (by change ["y", "xm", "um", "p"].Nodup; decide) (fun _ h => h)
    (by change [K] = [K] ++ g.outShape; rw [hg.out]; rfl) (Or.inr ⟨"y", by simp [OptFun.mk'], hK⟩)
  agrees := fun j hj => by
    rw [← hg.meets.args, hg.args] at hj ⊢
    have a0 := ha "y" (by simp)
    have a1 := ha "x" (by simp)
    have a2 := ha "u" (by simp)
    have a3 := ha "p" (by simp)
    change j < 4 at hj
    interval_cases j
    · exact ⟨a0.1.symm, a0.2⟩
    · exact ⟨hx.trans a1.1.symm, by have := a1.2; rw [← hx'] at this; exact this⟩
    · exact ⟨hu.trans a2.1.symm, by have := a2.2; rw [← hu'] at this; exact this⟩
    · exact ⟨a3.1.symm, a3.2⟩
  noAlias := h.noAlias _ (by change 4 = g.argNames.length; rw [hg.args]; rfl) (by change ["y", "xm", "um", "p"].Nodup; decide)
    (fun _ h => h) (by change [K] = [K] ++ g.outShape; rw [hg.out]; rfl)

theorem diff_wf {t : NDArray ℝ} {P : Nat} (hs : t.shape = [P + 1]) (hw : t.WF) : (⟨[P], diff t.data⟩ : NDArray ℝ).WF := by
  have : t.data.length = P + 1 := by simpa [NDArray.WF, hs] using hw
  simp [NDArray.WF, diff, this]

/-- How an output error problem uses its functions. -/
theorem oem_used (M : SymSide X) (m : OEMModel) (t : NDArray ℝ) (y : MaskedArray) (u : UArg) (ua : NDArray ℝ) (P N : Nat)
    (h : OEMInput m t y P) (hu : InputsOK m t u ua) (hN : (N : Int) + 1 = m.collocationOrder)
    (hM : ∀ K, AgreesOn M (oemTable P N m.nx m.nu m.np m.ny K) oemNames)
    (he : Fits M false m.e ["xp", "up", "p", "piece_len"] ["xp", "up", "piece_len"] [N, m.nx]) (hL : FitsL M m.L) :
    ∃ q, oemProblem ColProblem.initVars m t y u = .ok q ∧ q.prob.ndec = (P * N + 1) * m.nx + m.np ∧ UsedIn M (oemTable P N m.nx m.nu m.np m.ny q.nmeas) q.prob := by
  obtain ⟨q, N', hq, hN', hni, -, hnp, -, -, hdec, hndec, hrem, hcon, -, hobj, hext, hok⟩ := C21_oem m t y u ua P h hu
  obtain ⟨q2, rows, hq2, -, hal⟩ := C19_oem m t y u ua P h hu
  obtain rfl : q = q2 := Except.ok.inj (hq.symm.trans hq2)
  obtain ⟨q3, hq3, -, hup, -⟩ := C20_up m t y u ua P h hu
  obtain rfl : q = q3 := Except.ok.inj (hq.symm.trans hq3)
  have := h.order
  obtain rfl : N' = N := by omega
  rw [hni] at hup
  have hlt : ∀ a ∈ q.kmeas, a < P * N' + 1 := by
    intro a ha
    obtain ⟨i, hi, rfl⟩ := List.mem_iff_getElem.1 ha
    have := hal.point i (by rw [← hal.kmeas]; exact hi)
    rw [hnp] at this
    simpa [List.getD_eq_getElem?_getD, hi] using this
  rw [hnp] at hdec hndec hrem
  refine ⟨q, hq, hndec, ?_⟩
  have hK : q.nmeas = q.kmeas.length := by rw [hal.nmeas, hal.kmeas]
  have hrk : rows.length = q.kmeas.length := hal.kmeas.symm
  rw [hK] at hobj ⊢
  set T := oemTable P N' m.nx m.nu m.np m.ny q.kmeas.length with hT
  have sp : q.prob.variableSpec "p" = .ok (.comp ⟨[m.np], (P * N' + 1) * m.nx⟩) := by
    simp only [Problem.variableSpec, hdec]; rfl
  have sxp : q.prob.variableSpec "xp" = .ok (.piece ⟨⟨[P * N' + 1, m.nx], 0⟩, P, N' + 1⟩) := by
    simp only [Problem.variableSpec, hdec, hrem]; rfl
  have sxm : q.prob.variableSpec "xm" = .ok (.xm ⟨⟨[P * N' + 1, m.nx], 0⟩, q.kmeas⟩) := by
    simp only [Problem.variableSpec, hdec, hrem]; rfl
  have cpl : ConstEntry q.prob T "piece_len" := by
    refine ⟨?_, ⟨[P], diff t.data⟩, by rw [hext]; rfl, diff_wf h.tshape h.twf, rfl⟩
    simp only [Problem.variableSpec, hdec, hrem]; rfl
  have cup : ConstEntry q.prob T "up" := by
    refine ⟨?_, q.up, by rw [hext]; rfl, hup.2.1, hup.1⟩
    simp only [Problem.variableSpec, hdec, hrem]; rfl
  have cy : ConstEntry q.prob T "y" := by
    refine ⟨?_, q.y.arr, by rw [hext]; rfl, hal.yshape.2.1, by rw [hal.yshape.1, hrk]; rfl⟩
    simp only [Problem.variableSpec, hdec, hrem]; rfl
  have cum : ConstEntry q.prob T "um" := by
    refine ⟨?_, q.um, by rw [hext]; rfl, hal.umshape.2, by rw [hal.umshape.1, hrk]; rfl⟩
    simp only [Problem.variableSpec, hdec, hrem]; rfl
  let lo : String → Nat := fun n => if n ∈ ["xp", "xm"] then 0 else (P * N' + 1) * m.nx
  let hi : String → Nat := fun n => if n ∈ ["xp", "xm"] then (P * N' + 1) * m.nx else (P * N' + 1) * m.nx + m.np
  have ep : ∀ E, VarEntry q.prob T E "p" (lo "p") (hi "p") := fun E => by
    simpa [lo, hi, T, oemTable] using entry_single (T := T) (E := E) sp rfl
  have U1 : Usable q.prob T [P] ["xp", "up", "p", "piece_len"] lo hi := by
    refine ⟨?_, ?_, ?_, ?_, by simp⟩
    · intro n h hv
      simp only [List.mem_cons, List.not_mem_nil, or_false] at h
      rcases h with rfl | rfl | rfl | rfl
      · simpa [lo, hi] using entry_piece (T := T) sxp rfl rfl
      · simp [T, oemTable] at hv
      · exact ep _
      · simp [T, oemTable] at hv
    · intro n h hv
      simp only [List.mem_cons, List.not_mem_nil, or_false] at h
      rcases h with rfl | rfl | rfl | rfl <;> first | exact cpl | exact cup | simp [T, oemTable] at hv
    · intro n h n' h' hne hv hv'
      simp only [List.mem_cons, List.not_mem_nil, or_false] at h h'
      rcases h with rfl | rfl | rfl | rfl <;> rcases h' with rfl | rfl | rfl | rfl <;>
        first | exact absurd rfl hne | (simp [T, oemTable] at hv; done) | (simp [T, oemTable] at hv'; done) | (simp [lo, hi]; done)
    · simp [T, oemTable]
  have U2 : Usable q.prob T [q.kmeas.length] ["y", "xm", "um", "p"] lo hi := by
    refine ⟨?_, ?_, ?_, ?_, by simp⟩
    · intro n h hv
      simp only [List.mem_cons, List.not_mem_nil, or_false] at h
      rcases h with rfl | rfl | rfl | rfl
      · simp [T, oemTable] at hv
      · simpa [lo, hi] using entry_xm (T := T) hlt sxm rfl rfl
      · simp [T, oemTable] at hv
      · exact ep _
    · intro n h hv
      simp only [List.mem_cons, List.not_mem_nil, or_false] at h
      rcases h with rfl | rfl | rfl | rfl <;> first | exact cy | exact cum | simp [T, oemTable] at hv
    · intro n h n' h' hne hv hv'
      simp only [List.mem_cons, List.not_mem_nil, or_false] at h h'
      rcases h with rfl | rfl | rfl | rfl <;> rcases h' with rfl | rfl | rfl | rfl <;>
        first | exact absurd rfl hne | (simp [T, oemTable] at hv; done) | (simp [T, oemTable] at hv'; done) | (simp [lo, hi]; done)
    · simp [T, oemTable]
  have hM := hM q.kmeas.length
  refine ⟨⟨_, hok⟩, ?_, ?_⟩
  · rw [hobj]
    intro o ho
    rw [List.mem_singleton.1 ho]
    exact U2.usedL hL rfl (hM.mono (by decide)) rfl rfl rfl rfl
  · rw [hcon]
    intro o ho
    rw [List.mem_singleton.1 ho]
    exact U1.used he (hM.mono (by decide)) (by simp) (Or.inr (by simp [T, oemTable]))

/-- The names of the arguments of the functions of joint MAP models. -/
def jmeNames : List String := ["y", "x", "u", "p", "xp", "up", "piece_len", "wc", "G"]

set_option maxHeartbeats 1000000 in
/-- How a joint MAP problem uses its functions. -/
theorem jme_used (M : SymSide X) (m : JMEModel) (t : NDArray ℝ) (y : MaskedArray) (u : UArg) (ua : NDArray ℝ) (P N : Nat)
    (h : OEMInput m.toOEMModel t y P) (hu : InputsOK m.toOEMModel t u ua) (hN : (N : Int) + 1 = m.collocationOrder)
    (hG : m.G.WF ∧ m.G.shape = [m.nx, m.nw])
    (hM : ∀ K, AgreesOn M (jmeTable P N m.nx m.nu m.np m.ny m.nw K) jmeNames)
    (he : Fits M false m.e ["xp", "up", "p", "piece_len", "wc", "G"] ["xp", "up", "piece_len", "wc"] [N, m.nx]) (hL : FitsL M m.L)
    (htube : Fits M true m.tubeL ["xp", "up", "p", "piece_len", "wc", "G"] ["xp", "up", "piece_len", "wc"] [])
    (hpen : m.usePenalty = some true → ∃ f w, m.penalty = some f ∧ m.penweight = some w ∧ w.WF ∧ w.shape = [m.nx] ∧
      M.shape "penweight" = [m.nx] ∧ "penweight" ∉ M.decision ∧
      Fits M true f ["xp", "up", "p", "piece_len", "wc", "G", "penweight"] ["xp", "up", "piece_len", "wc"] []) :
    ∃ q, jmeProblem m t y u = .ok q ∧ q.prob.ndec = (P * N + 1) * m.nx + P * N * m.nw + m.np ∧ UsedIn M (jmeTable P N m.nx m.nu m.np m.ny m.nw q.nmeas) q.prob := by
  have hpen' : m.usePenalty = some true → m.penalty ≠ none := fun hp => by
    obtain ⟨f, -, hf, -⟩ := hpen hp
    simp [hf]
  obtain ⟨q, N', hq, hN', hni, -, hnp, -, -, hdec, hndec, hrem, hcon, -, hobj, hext, hok⟩ := C21_jme m t y u ua P h hu hpen'
  obtain ⟨q2, rows, hq2, -, hal⟩ := C19_jme m t y u ua P h hu hpen'
  obtain rfl : q = q2 := Except.ok.inj (hq.symm.trans hq2)
  obtain ⟨q3, hq3, -, hup, -⟩ := C20_up_jme m t y u ua P h hu hpen'
  obtain rfl : q = q3 := Except.ok.inj (hq.symm.trans hq3)
  have := h.order
  obtain rfl : N' = N := by omega
  rw [hni] at hup
  have hlt : ∀ a ∈ q.kmeas, a < P * N' + 1 := by
    intro a ha
    obtain ⟨i, hi, rfl⟩ := List.mem_iff_getElem.1 ha
    have := hal.point i (by rw [← hal.kmeas]; exact hi)
    rw [hnp] at this
    simpa [List.getD_eq_getElem?_getD, hi] using this
  rw [hnp] at hdec hndec hrem
  refine ⟨q, hq, hndec, ?_⟩
  have hK : q.nmeas = q.kmeas.length := by rw [hal.nmeas, hal.kmeas]
  have hrk : rows.length = q.kmeas.length := hal.kmeas.symm
  rw [hK] at hobj ⊢
  set T := jmeTable P N' m.nx m.nu m.np m.ny m.nw q.kmeas.length with hT
  have sp : q.prob.variableSpec "p" = .ok (.comp ⟨[m.np], (P * N' + 1) * m.nx + P * N' * m.nw⟩) := by
    simp only [Problem.variableSpec, hdec]; rfl
  have swc : q.prob.variableSpec "wc" = .ok (.comp ⟨[P, N', m.nw], (P * N' + 1) * m.nx⟩) := by
    simp only [Problem.variableSpec, hdec]; rfl
  have sxp : q.prob.variableSpec "xp" = .ok (.piece ⟨⟨[P * N' + 1, m.nx], 0⟩, P, N' + 1⟩) := by
    simp only [Problem.variableSpec, hdec, hrem]; rfl
  have sxm : q.prob.variableSpec "xm" = .ok (.xm ⟨⟨[P * N' + 1, m.nx], 0⟩, q.kmeas⟩) := by
    simp only [Problem.variableSpec, hdec, hrem]; rfl
  have hget : ∀ n, n ≠ "penweight" → Dict.get? q.prob.extra n =
      Dict.get? [("G", m.G), ("y", q.y.arr), ("um", q.um), ("u", ua), ("up", q.up), ("piece_len", ⟨[P], diff t.data⟩)] n := by
    intro n hn
    rw [hext]
    cases m.penweight with
    | none => rfl
    | some w =>
      change Dict.get? (("penweight", w) :: _) n = _
      rw [Dict.get?_cons, if_neg (Ne.symm hn)]
      rfl
  have cpl : ConstEntry q.prob T "piece_len" := by
    refine ⟨?_, ⟨[P], diff t.data⟩, by rw [hget _ (by decide)]; rfl, diff_wf h.tshape h.twf, rfl⟩
    simp only [Problem.variableSpec, hdec, hrem]; rfl
  have cup : ConstEntry q.prob T "up" := by
    refine ⟨?_, q.up, by rw [hget _ (by decide)]; rfl, hup.2.1, hup.1⟩
    simp only [Problem.variableSpec, hdec, hrem]; rfl
  have cy : ConstEntry q.prob T "y" := by
    refine ⟨?_, q.y.arr, by rw [hget _ (by decide)]; rfl, hal.yshape.2.1, by rw [hal.yshape.1, hrk]; rfl⟩
    simp only [Problem.variableSpec, hdec, hrem]; rfl
  have cum : ConstEntry q.prob T "um" := by
    refine ⟨?_, q.um, by rw [hget _ (by decide)]; rfl, hal.umshape.2, by rw [hal.umshape.1, hrk]; rfl⟩
    simp only [Problem.variableSpec, hdec, hrem]; rfl
  have cG : ConstEntry q.prob T "G" := by
    refine ⟨?_, m.G, by rw [hget _ (by decide)]; rfl, hG.1, hG.2⟩
    simp only [Problem.variableSpec, hdec, hrem]; rfl
  let lo : String → Nat := fun n => if n ∈ ["xp", "xm"] then 0 else if n = "wc" then (P * N' + 1) * m.nx else
    (P * N' + 1) * m.nx + P * N' * m.nw
  let hi : String → Nat := fun n => if n ∈ ["xp", "xm"] then (P * N' + 1) * m.nx else
    if n = "wc" then (P * N' + 1) * m.nx + P * N' * m.nw else (P * N' + 1) * m.nx + P * N' * m.nw + m.np
  have ep : ∀ E, VarEntry q.prob T E "p" (lo "p") (hi "p") := fun E => by
    simpa [lo, hi, T, jmeTable] using entry_single (T := T) (E := E) sp rfl
  have ewc : VarEntry q.prob T [P] "wc" (lo "wc") (hi "wc") := by
    simpa [lo, hi, T, jmeTable, Nat.mul_assoc] using entry_comp (T := T) swc rfl
  have U1 : Usable q.prob T [P] ["xp", "up", "p", "piece_len", "wc", "G"] lo hi := by
    refine ⟨?_, ?_, ?_, ?_, by simp⟩
    · intro n h hv
      simp only [List.mem_cons, List.not_mem_nil, or_false] at h
      rcases h with rfl | rfl | rfl | rfl | rfl | rfl
      · simpa [lo, hi] using entry_piece (T := T) sxp rfl rfl
      · simp [T, jmeTable] at hv
      · exact ep _
      · simp [T, jmeTable] at hv
      · exact ewc
      · simp [T, jmeTable] at hv
    · intro n h hv
      simp only [List.mem_cons, List.not_mem_nil, or_false] at h
      rcases h with rfl | rfl | rfl | rfl | rfl | rfl <;> first | exact cpl | exact cup | exact cG | simp [T, jmeTable] at hv
    · intro n h n' h' hne hv hv'
      simp only [List.mem_cons, List.not_mem_nil, or_false] at h h'
      rcases h with rfl | rfl | rfl | rfl | rfl | rfl <;> rcases h' with rfl | rfl | rfl | rfl | rfl | rfl <;>
        first | exact absurd rfl hne | (simp [T, jmeTable] at hv; done) | (simp [T, jmeTable] at hv'; done) |
          (simp [lo, hi]; done) | (simp [lo, hi]; omega)
    · simp [T, jmeTable]
  have U2 : Usable q.prob T [q.kmeas.length] ["y", "xm", "um", "p"] lo hi := by
    refine ⟨?_, ?_, ?_, ?_, by simp⟩
    · intro n h hv
      simp only [List.mem_cons, List.not_mem_nil, or_false] at h
      rcases h with rfl | rfl | rfl | rfl
      · simp [T, jmeTable] at hv
      · simpa [lo, hi] using entry_xm (T := T) hlt sxm rfl rfl
      · simp [T, jmeTable] at hv
      · exact ep _
    · intro n h hv
      simp only [List.mem_cons, List.not_mem_nil, or_false] at h
      rcases h with rfl | rfl | rfl | rfl <;> first | exact cy | exact cum | simp [T, jmeTable] at hv
    · intro n h n' h' hne hv hv'
      simp only [List.mem_cons, List.not_mem_nil, or_false] at h h'
      rcases h with rfl | rfl | rfl | rfl <;> rcases h' with rfl | rfl | rfl | rfl <;>
        first | exact absurd rfl hne | (simp [T, jmeTable] at hv; done) | (simp [T, jmeTable] at hv'; done) |
          (simp [lo, hi]; done) | (simp [lo, hi]; omega)
    · simp [T, jmeTable]
  have hM := hM q.kmeas.length
  refine ⟨⟨_, hok⟩, ?_, ?_⟩
  · rw [hobj]
    intro o ho
    rcases List.mem_append.1 ho with ho | ho
    · simp only [List.mem_cons, List.not_mem_nil, or_false] at ho
      rcases ho with rfl | rfl
      · exact U2.usedL hL rfl (hM.mono (by decide)) rfl rfl rfl rfl
      · exact U1.used htube (hM.mono (by decide)) (by simp) (Or.inr (by simp [T, jmeTable]))
    · by_cases hup2 : m.usePenalty = some true
      · obtain ⟨f, w, hf, hw, hwf, hws, hpw1, hpw2, hfit⟩ := hpen hup2
        rw [hup2, hf] at ho
        rw [List.mem_singleton.1 ho]
        have cw : ConstEntry q.prob T "penweight" := by
          refine ⟨?_, w, by rw [hext, hw]; rfl, hwf, hws⟩
          simp only [Problem.variableSpec, hdec, hrem]; rfl
        have U3 : Usable q.prob T [P] ["xp", "up", "p", "piece_len", "wc", "G", "penweight"] lo hi := by
          have hmem : ∀ n ∈ ["xp", "up", "p", "piece_len", "wc", "G", "penweight"], n ≠ "penweight" →
              n ∈ ["xp", "up", "p", "piece_len", "wc", "G"] := by decide
          have hpw : T.var "penweight" = false := by simp [T, jmeTable]
          refine ⟨fun n hn hv => U1.vars n (hmem n hn ?_) hv, fun n hn hv => ?_, fun n hn n' hn' hne hv hv' =>
            U1.disj n (hmem n hn ?_) n' (hmem n' hn' ?_) hne hv hv', by simp [T, jmeTable], by simp⟩
          · rintro rfl; rw [hpw] at hv; cases hv
          · by_cases hnp : n = "penweight"
            · rw [hnp]; exact cw
            · exact U1.consts n (hmem n hn hnp) hv
          · rintro rfl; rw [hpw] at hv; cases hv
          · rintro rfl; rw [hpw] at hv'; cases hv'
        have hM' : AgreesOn M T ["xp", "up", "p", "piece_len", "wc", "G", "penweight"] := by
          intro n hn
          by_cases hnp : n = "penweight"
          · subst hnp
            exact ⟨hpw1, by simp [T, jmeTable, hpw2]⟩
          · have : ∀ n ∈ ["xp", "up", "p", "piece_len", "wc", "G", "penweight"], n ≠ "penweight" → n ∈ jmeNames := by decide
            exact hM n (this n hn hnp)
        exact U3.used hfit hM' (by simp) (Or.inr (by simp [T, jmeTable]))
      · exfalso
        revert ho
        rcases hu1 : m.usePenalty with _ | _ | _
        · simp
        · simp
        · exact absurd hu1 hup2
  · rw [hcon]
    intro o ho
    rw [List.mem_singleton.1 ho]
    exact U1.used he (hM.mono (by decide)) (by simp) (Or.inr (by simp [T, jmeTable]))

/-- **C67** for optimal control problems. -/
theorem C67_oc (M : SymSide X) (m : OCModel) (t : NDArray ℝ) (P N : Nat) (hn : 2 ≤ m.collocationOrder)
    (hN : (N : Int) + 1 = m.collocationOrder) (hP : 1 ≤ P) (hs : t.shape = [P + 1]) (hw : t.WF) (hinc : t.data.Pairwise (· < ·))
    (hM : AgreesOn M (ocTable P N m.nx m.nu m.np) ocNames)
    (he : Fits M false m.e ["xp", "up", "p", "piece_len"] ["xp", "up", "piece_len"] [N, m.nx])
    (hIL : Fits M true m.IL ["xp", "up", "p", "piece_len"] ["xp", "up", "piece_len"] [])
    (hMayer : Fits M true m.M ["xe", "p"] ["xe", "p"] []) (hg : Fits M false m.g ["x", "u", "p"] ["x", "u"] [m.ng])
    (hh : Fits M false m.h ["xe", "p"] ["xe", "p"] [m.nh]) :
    ∃ q, ocProblem m t = .ok q ∧ q.prob.ndec = (P * N + 1) * (m.nx + m.nu) + m.np ∧
      ∀ dvec : List ℝ, dvec.length = q.prob.ndec → SmoothProblem M (ocTable P N m.nx m.nu m.np) q.prob dvec →
        DerivativesRight q.prob dvec := by
  obtain ⟨q, h1, h2, h3⟩ := oc_used M m t P N hn hN hP hs hw hinc hM he hIL hMayer hg hh
  exact ⟨q, h1, h2, fun _ hl hsm => h3.right hl hsm⟩

/-- **C67** for output error problems. -/
theorem C67_oem (M : SymSide X) (m : OEMModel) (t : NDArray ℝ) (y : MaskedArray) (u : UArg) (ua : NDArray ℝ) (P N : Nat)
    (h : OEMInput m t y P) (hu : InputsOK m t u ua) (hN : (N : Int) + 1 = m.collocationOrder)
    (hM : ∀ K, AgreesOn M (oemTable P N m.nx m.nu m.np m.ny K) oemNames)
    (he : Fits M false m.e ["xp", "up", "p", "piece_len"] ["xp", "up", "piece_len"] [N, m.nx]) (hL : FitsL M m.L) :
    ∃ q, oemProblem ColProblem.initVars m t y u = .ok q ∧ q.prob.ndec = (P * N + 1) * m.nx + m.np ∧
      ∀ dvec : List ℝ, dvec.length = q.prob.ndec → SmoothProblem M (oemTable P N m.nx m.nu m.np m.ny q.nmeas) q.prob dvec →
        DerivativesRight q.prob dvec := by
  obtain ⟨q, h1, h2, h3⟩ := oem_used M m t y u ua P N h hu hN hM he hL
  exact ⟨q, h1, h2, fun _ hl hsm => h3.right hl hsm⟩

/-- **C67** for joint MAP problems, with or without the defect penalty. -/
theorem C67_jme (M : SymSide X) (m : JMEModel) (t : NDArray ℝ) (y : MaskedArray) (u : UArg) (ua : NDArray ℝ) (P N : Nat)
    (h : OEMInput m.toOEMModel t y P) (hu : InputsOK m.toOEMModel t u ua) (hN : (N : Int) + 1 = m.collocationOrder)
    (hG : m.G.WF ∧ m.G.shape = [m.nx, m.nw])
    (hM : ∀ K, AgreesOn M (jmeTable P N m.nx m.nu m.np m.ny m.nw K) jmeNames)
    (he : Fits M false m.e ["xp", "up", "p", "piece_len", "wc", "G"] ["xp", "up", "piece_len", "wc"] [N, m.nx]) (hL : FitsL M m.L)
    (htube : Fits M true m.tubeL ["xp", "up", "p", "piece_len", "wc", "G"] ["xp", "up", "piece_len", "wc"] [])
    (hpen : m.usePenalty = some true → ∃ f w, m.penalty = some f ∧ m.penweight = some w ∧ w.WF ∧ w.shape = [m.nx] ∧
      M.shape "penweight" = [m.nx] ∧ "penweight" ∉ M.decision ∧
      Fits M true f ["xp", "up", "p", "piece_len", "wc", "G", "penweight"] ["xp", "up", "piece_len", "wc"] []) :
    ∃ q, jmeProblem m t y u = .ok q ∧ q.prob.ndec = (P * N + 1) * m.nx + P * N * m.nw + m.np ∧
      ∀ dvec : List ℝ, dvec.length = q.prob.ndec → SmoothProblem M (jmeTable P N m.nx m.nu m.np m.ny m.nw q.nmeas) q.prob dvec →
        DerivativesRight q.prob dvec := by
  obtain ⟨q, h1, h2, h3⟩ := jme_used M m t y u ua P N h hu hN hG hM he hL htube hpen
  exact ⟨q, h1, h2, fun _ hl hsm => h3.right hl hsm⟩

end Ceacoest
