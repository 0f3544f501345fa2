import Verif.Lemmas.GenOptim
import Verif.Lemmas.RowSel
import Verif.Lemmas.Chain
import Verif.Props.Layout
import Verif.Props.Renaming
import Verif.Props.GenOptim

/-! Helper lemmas: what a well registered function reads and lists. -/

namespace Ceacoest
open Spec
variable {α : Type}

/-- Decision index of entry `i` of a variable. -/
def convOf (v : VarSpec) (i : Nat) : Nat := match v.convertInd i with | .ok q => q | .error _ => 0

theorem Gathers.congr [AddCommMonoid α] {v : VarSpec} {n : Nat} {c c' : Nat → Nat} (h : Gathers α v n c)
    (hc : ∀ i < v.shape.prod, c i = c' i) : Gathers α v n c' where
  unpack vec hv := by
    rw [h.unpack vec hv]
    congr 2
    exact List.map_congr_left fun i hi => by rw [hc i (List.mem_range.1 hi)]
  lt i hi := by rw [← hc i hi]; exact h.lt i hi
  ind i hi := by rw [← hc i hi]; exact h.ind i hi
  add dest x hd hs hw := by
    rw [h.add dest x hd hs hw]
    congr 1
    exact List.map_congr_left fun j _ => by rw [scat_congr hc fun _ _ => rfl]

theorem Gathers.canon [AddCommMonoid α] {v : VarSpec} {n : Nat} {c : Nat → Nat} (h : Gathers α v n c) :
    Gathers α v n (convOf v) := h.congr fun i hi => by simp [convOf, h.ind i hi]

theorem Spec.VarOK.gathers [AddCommMonoid α] {v : VarSpec} {n : Nat} (h : VarOK n v) : Gathers α v n (convOf v) := by
  cases v with
  | comp c => exact (Gathers.comp c n h).canon
  | piece v =>
    obtain ⟨⟨sh, off⟩, P, C⟩ := v
    obtain ⟨h1, h2, ⟨rest, h3⟩, h4⟩ := h
    obtain ⟨N, rfl⟩ : ∃ N, C = N + 1 := ⟨C - 1, by simp only at h2; omega⟩
    simp only [Nat.add_sub_cancel] at h1 h2 h3 h4
    subst h3
    exact (PieceRavelled.gathers off P N rest h1 (by omega) n (by simpa using h4)).canon
  | xe v =>
    obtain ⟨⟨sh, off⟩⟩ := v
    obtain ⟨⟨np, nx, h1, h2⟩, h3⟩ := h
    simp only at h2 h3
    subst h2
    exact (XEVar.gathers off np nx h1 n (by simpa using h3)).canon
  | xm v =>
    obtain ⟨⟨sh, off⟩, k⟩ := v
    obtain ⟨⟨np, nx, h1, h2⟩, h3, h4⟩ := h
    simp only at h1 h2 h3 h4
    subst h1
    exact (XMVar.gathers off np nx k h2 h3 n (by simpa using h4)).canon

/-! ### Problems -/

theorem specs_nodup {p : Problem α} {calls : List (Problem.Call α)} (hp : ProblemOK p calls) :
    (Dict.keys p.decision ++ Dict.keys p.remapped).Nodup := by
  obtain ⟨⟨extra, rfl⟩, -⟩ := hp
  exact (inv_run calls).names

theorem variableSpec_iff {p : Problem α} {calls : List (Problem.Call α)} (hp : ProblemOK p calls) (name : String)
    (v : VarSpec) : p.variableSpec name = .ok v ↔ (name, v) ∈ p.items := by
  have hn := specs_nodup hp
  have hk : (Dict.keys p.items).Nodup := by
    simpa [Problem.items, Dict.keys, Function.comp_def] using hn
  have h1 : Dict.get? p.items name = (((Dict.get? p.decision name).map VarSpec.comp).or (Dict.get? p.remapped name)) := by
    unfold Problem.items
    rw [Dict.get?_append, Dict.get?_map]
  have h2 : p.variableSpec name = .ok v ↔ Dict.get? p.items name = some v := by
    rw [h1]
    unfold Problem.variableSpec
    cases Dict.get? p.decision name with
    | some c => simp
    | none => cases Dict.get? p.remapped name <;> simp
  rw [h2]
  exact ⟨Dict.mem_of_get?, Dict.get?_of_mem hk⟩

theorem variableSpec_error {p : Problem α} {name : String} {e : PyErr} (h : p.variableSpec name = .error e) :
    name ∉ Dict.keys p.items := by
  unfold Problem.variableSpec at h
  cases hd : Dict.get? p.decision name with
  | some c => simp [hd] at h
  | none =>
    cases hr : Dict.get? p.remapped name with
    | some c => simp [hd, hr] at h
    | none =>
      rw [Dict.get?_eq_none_iff] at hd hr
      simpa [Problem.items, Dict.keys, Function.comp_def] using ⟨by simpa [Dict.keys] using hd, by simpa [Dict.keys] using hr⟩

theorem spec_gathers [AddCommMonoid α] {p : Problem α} {calls : List (Problem.Call α)} (hp : ProblemOK p calls)
    {name : String} {v : VarSpec} (h : p.variableSpec name = .ok v) : Gathers α v p.ndec (convOf v) := by
  have hm := (variableSpec_iff hp name v).1 h
  rcases List.mem_append.1 hm with h | h
  · obtain ⟨⟨n, c⟩, hc, h⟩ := List.mem_map.1 h
    simp only [Prod.mk.injEq] at h
    obtain ⟨rfl, rfl⟩ := h
    apply Spec.VarOK.gathers
    obtain ⟨⟨extra, rfl⟩, -⟩ := hp
    exact (inv_run calls).decTiles.mem_le
      (List.mem_map_of_mem (f := fun kv : String × Component => (kv.2.offset, kv.2.shape.prod)) hc)
  · exact Spec.VarOK.gathers (hp.dep _ h)

theorem variableShapes_get {p : Problem α} {calls : List (Problem.Call α)} (hp : ProblemOK p calls)
    {name : String} {v : VarSpec} (h : p.variableSpec name = .ok v) : Dict.get? p.variableShapes name = some v.shape := by
  have hm := (variableSpec_iff hp name v).1 h
  have hk : (Dict.keys (p.items.map fun kv => (kv.1, kv.2.shape))).Nodup := by
    have := specs_nodup hp
    simpa [Problem.items, Dict.keys, Function.comp_def] using this
  unfold Problem.variableShapes
  rw [Dict.update_nil_of_nodup hk]
  exact Dict.get?_of_mem hk (List.mem_map_of_mem (f := fun kv : String × VarSpec => (kv.1, kv.2.shape)) hm)

/-- What `variables` returns. -/
theorem variables_eq [AddCommMonoid α] {p : Problem α} {calls : List (Problem.Call α)} (hp : ProblemOK p calls)
    (dvec : List α) (hl : dvec.length = p.ndec) :
    ∃ vs, p.variables dvec = .ok vs ∧
      (∀ name v, p.variableSpec name = .ok v → Dict.get? vs name =
        some ⟨v.shape, (List.range v.shape.prod).map fun i => dvec.getD (convOf v i) 0⟩) ∧
      ∀ name e, p.variableSpec name = .error e → Dict.get? vs name = Dict.get? p.extra name := by
  let U : VarSpec → NDArray α := fun v => ⟨v.shape, (List.range v.shape.prod).map fun i => dvec.getD (convOf v i) 0⟩
  have hU : ∀ kv ∈ p.items, kv.2.unpackFrom dvec = .ok (U kv.2) := fun kv hkv =>
    (spec_gathers hp ((variableSpec_iff hp kv.1 kv.2).2 hkv)).unpack dvec hl
  have hk : (Dict.keys (p.items.map fun kv => (kv.1, U kv.2))).Nodup := by
    have := specs_nodup hp
    simpa [Problem.items, Dict.keys, Function.comp_def] using this
  have hvars : p.variables dvec = .ok (Dict.update p.extra (p.items.map fun kv => (kv.1, U kv.2))) := by
    unfold Problem.variables
    rw [pyAssert_true hl]
    simp only [py_bind_ok, py_pure]
    rw [mapM_ok (g := fun kv => (kv.1, U kv.2))]
    · simp only [py_bind_ok]
      rw [Dict.update_nil_of_nodup hk]
    · intro kv hkv
      rw [hU kv hkv]; rfl
  refine ⟨_, hvars, fun name v h => ?_, fun name e h => ?_⟩
  · rw [Dict.get?_update hk, Dict.get?_of_mem hk (List.mem_map_of_mem (f := fun kv => (kv.1, U kv.2))
      ((variableSpec_iff hp name v).1 h))]
    rfl
  · refine Dict.get?_update_of_not_mem ?_
    have := variableSpec_error h
    simpa [Dict.keys, Function.comp_def] using this

/-! ### Functions -/

/-- The specification of the variable passed for argument `j`. -/
def specOf (p : Problem ℝ) (o : OptFun ℝ) (j : Nat) : VarSpec :=
  match p.variableSpec (o.args.getD j "") with | .ok v => v | .error _ => .comp ⟨[], 0⟩

/-- The decision index of base entry `k` of argument `j` in extension element `e`. -/
def posOf (p : Problem ℝ) (o : OptFun ℝ) (R : Reg) (e j k : Nat) : Nat :=
  convOf (specOf p o j) (bcIdx (R.ext j) R.E e * (R.bs j).prod + k)

/-- The constant arguments of extension element `e`. -/
def constOf (p : Problem ℝ) (o : OptFun ℝ) (R : Reg) (e : Nat) : Args := fun j k =>
  ((Dict.get? p.extra (o.args.getD j "")).getD ⟨[], []⟩).data.getD (bcIdx (R.ext j) R.E e * (R.bs j).prod + k) 0

/-- Base arguments of extension element `e`, as gathered from a decision vector. -/
def argsOf (p : Problem ℝ) (o : OptFun ℝ) (R : Reg) (e : Nat) (d : List ℝ) : Args :=
  gArgs o.fn.argNames.length (fun j => (R.bs j).prod) R.var (posOf p o R e) (constOf p o R e) d

section
variable {p : Problem ℝ} {calls : List (Problem.Call ℝ)} {o : OptFun ℝ} {s : Sym} {R : Reg}
  (hp : ProblemOK p calls) (ho : FunOK p o s R)
include hp ho
set_option linter.unusedSectionVars false

theorem Spec.FunOK.spec {j : Nat} (hj : j < o.fn.argNames.length) (hv : R.var j = true) :
    p.variableSpec (o.args.getD j "") = .ok (specOf p o j) ∧ (specOf p o j).shape = R.ext j ++ R.bs j := by
  obtain ⟨v, h1, h2⟩ := ho.vars j hj hv
  have : specOf p o j = v := by simp only [specOf, h1]
  rw [this]
  exact ⟨h1, h2⟩

theorem Spec.FunOK.canBc {j : Nat} (hj : j < o.fn.argNames.length) : canBroadcast (R.ext j) R.E = true :=
  bcShapes_canBroadcast ho.bc _ (List.mem_map_of_mem (List.mem_range.2 hj))

theorem Spec.FunOK.flat_lt {j : Nat} (hj : j < o.fn.argNames.length) {e k : Nat} (he : e < R.E.prod)
    (hk : k < (R.bs j).prod) : bcIdx (R.ext j) R.E e * (R.bs j).prod + k < (R.ext j ++ R.bs j).prod := by
  rw [List.prod_append]
  exact mul_add_lt (bcIdx_lt (ho.canBc hp hj) he) hk

theorem Spec.FunOK.pos_lt {j : Nat} (hj : j < o.fn.argNames.length) (hv : R.var j = true) {e k : Nat} (he : e < R.E.prod)
    (hk : k < (R.bs j).prod) : posOf p o R e j k < p.ndec := by
  obtain ⟨h1, h2⟩ := ho.spec hp hj hv
  exact (spec_gathers hp h1).lt _ (by rw [h2]; exact ho.flat_lt hp hj he hk)

/-- The argument arrays and the base arguments read from them. -/
theorem Spec.FunOK.vals (dvec : List ℝ) (hl : dvec.length = p.ndec) (vs : Dict String (NDArray ℝ))
    (hvs : p.variables dvec = .ok vs) :
    ∃ vals, o.argVals vs = .ok vals ∧ vals.length = o.fn.argNames.length ∧
      (∀ j < o.fn.argNames.length, ∃ a, vals[j]? = some a ∧ Dict.get? vs (o.args.getD j "") = some a ∧ a.WF ∧
        a.shape = R.ext j ++ R.bs j) ∧
      ∀ e < R.E.prod, baseArgs o R vs e = argsOf p o R e dvec ∧
        (fun j k => if j < o.fn.argNames.length ∧ k < (R.bs j).prod then
          (vals.getD j ⟨[], []⟩).data.getD (bcIdx (R.ext j) R.E e * (R.bs j).prod + k) 0 else 0) =
        argsOf p o R e dvec := by
  obtain ⟨vs', h0, h1, h2⟩ := variables_eq hp dvec hl
  rw [hvs] at h0
  cases h0
  have hget : ∀ j < o.fn.argNames.length, ∃ a, Dict.get? vs (o.args.getD j "") = some a ∧ a.WF ∧
      a.shape = R.ext j ++ R.bs j := by
    intro j hj
    cases hv : R.var j
    · obtain ⟨h3, a, h4, h5, h6⟩ := ho.consts j hj hv
      exact ⟨a, by rw [h2 _ _ h3, h4], h5, h6⟩
    · obtain ⟨h3, h4⟩ := ho.spec hp hj hv
      exact ⟨_, h1 _ _ h3, by simp [NDArray.WF], h4⟩
  have hval : ∀ a ∈ o.args, ∃ x, Dict.get? vs a = some x := by
    intro a ha
    obtain ⟨j, hj, rfl⟩ := List.getElem_of_mem ha
    obtain ⟨x, hx, -⟩ := hget j (by rw [← ho.nargs]; exact hj)
    exact ⟨x, by simpa [List.getD_eq_getElem?_getD, hj] using hx⟩
  have hget2 : ∀ j < o.fn.argNames.length, o.args.getD j "" = o.args[j]! := fun j hj => by
    have : j < o.args.length := by rw [ho.nargs]; exact hj
    simp [List.getD_eq_getElem?_getD, this]
  refine ⟨o.args.map fun a => (Dict.get? vs a).getD ⟨[], []⟩, ?_, by simp [ho.nargs], fun j hj => ?_, fun e he => ?_⟩
  · unfold OptFun.argVals
    refine mapM_ok fun a ha => ?_
    obtain ⟨x, hx⟩ := hval a ha
    simp [Dict.getItem, hx]
  · obtain ⟨a, ha, hw, hs⟩ := hget j hj
    have hj' : j < o.args.length := by rw [ho.nargs]; exact hj
    refine ⟨a, ?_, ha, hw, hs⟩
    have : o.args.getD j "" = o.args[j] := by simp [List.getD_eq_getElem?_getD, hj']
    rw [this] at ha
    simp [hj', ha]
  · have key : ∀ j < o.fn.argNames.length, ∀ k < (R.bs j).prod,
        ((Dict.get? vs (o.args.getD j "")).getD ⟨[], []⟩).data.getD (bcIdx (R.ext j) R.E e * (R.bs j).prod + k) 0 =
          if R.var j then dvec.getD (posOf p o R e j k) 0 else constOf p o R e j k := by
      intro j hj k hk
      cases hv : R.var j
      · obtain ⟨h3, a, h4, h5, h6⟩ := ho.consts j hj hv
        simp only [Bool.false_eq_true, if_false]
        rw [h2 _ _ h3]
        rfl
      · obtain ⟨h3, h4⟩ := ho.spec hp hj hv
        simp only [if_true]
        rw [h1 _ _ h3]
        have := ho.flat_lt hp hj he hk
        simp only [Option.getD_some]
        rw [getD_map_range 0 _ (by rw [h4]; exact this)]
        rfl
    constructor
    · funext j k
      unfold baseArgs argsOf gArgs
      by_cases h : j < o.fn.argNames.length ∧ k < (R.bs j).prod
      · rw [if_pos h, if_pos h, key j h.1 k h.2]
      · rw [if_neg h, if_neg h]
    · funext j k
      unfold argsOf gArgs
      by_cases h : j < o.fn.argNames.length ∧ k < (R.bs j).prod
      · rw [if_pos h, if_pos h, ← key j h.1 k h.2]
        have hj' : j < o.args.length := by rw [ho.nargs]; exact h.1
        have : o.args.getD j "" = o.args[j] := by simp [List.getD_eq_getElem?_getD, hj']
        rw [this]
        congr 2
        simp [List.getD_eq_getElem?_getD, hj']
      · rw [if_neg h, if_neg h]

/-- Any vectorised function of the arguments. -/
theorem Spec.FunOK.vec (dvec : List ℝ) (hl : dvec.length = p.ndec) (vals : List (NDArray ℝ)) (vs : Dict String (NDArray ℝ))
    (hvs : p.variables dvec = .ok vs) (hvals : o.argVals vs = .ok vals) {g : List (NDArray ℝ) → NDArray ℝ}
    {osh : List Nat} {G : Args → Nat → ℝ}
    (hg : Vectorised g ((List.range o.fn.argNames.length).map R.bs) osh G) :
    (g vals).shape = R.E ++ osh ∧ (g vals).data = (List.range R.E.prod).flatMap fun e =>
      (List.range osh.prod).map fun r => G (argsOf p o R e dvec) r := by
  obtain ⟨vals', h0, h1, h2, h3⟩ := ho.vals hp dvec hl vs hvs
  rw [hvals] at h0
  cases h0
  have hbs : ∀ j < o.fn.argNames.length, ((List.range o.fn.argNames.length).map R.bs).getD j [] = R.bs j :=
    fun j hj => getD_map_range [] _ hj
  have hext : ∀ j < o.fn.argNames.length, ((List.range o.fn.argNames.length).map R.ext).getD j [] = R.ext j :=
    fun j hj => getD_map_range [] _ hj
  obtain ⟨g1, g2, g3⟩ := hg vals ((List.range o.fn.argNames.length).map R.ext) R.E (by simpa using h1) (by simp)
    (fun j hj => by
      simp only [List.length_map, List.length_range] at hj
      obtain ⟨a, ha, -, hw, hs⟩ := h2 j hj
      exact ⟨a, ha, hw, by rw [hs, hbs j hj, hext j hj]⟩) ho.bc
  refine ⟨g1, ?_⟩
  have hlen : (g vals).data.length = R.E.prod * osh.prod := by rw [g2, g1, List.prod_append]
  rw [range_flatMap_map R.E.prod osh.prod fun e r => G (argsOf p o R e dvec) r]
  rw [eq_map_range_getD 0 (g vals).data hlen]
  refine List.map_congr_left fun q hq => ?_
  have hq := List.mem_range.1 hq
  have ho' : 0 < osh.prod := Nat.pos_of_ne_zero fun h => by simp [h] at hq
  have he : q / osh.prod < R.E.prod := (Nat.div_lt_iff_lt_mul ho').2 hq
  have := g3 _ he _ (Nat.mod_lt q ho')
  rw [Nat.div_add_mod'] at this
  rw [this, ← (h3 _ he).2]
  congr 1
  funext j k
  simp only [List.length_map, List.length_range]
  by_cases hj : j < o.fn.argNames.length
  · rw [hbs j hj, hext j hj]
  · simp [hj]

end

end Ceacoest
