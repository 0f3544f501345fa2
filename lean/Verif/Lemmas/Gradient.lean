import Verif.Lemmas.Weighted

/-! Helper lemmas: assembly of the objective gradient. -/

namespace Ceacoest
open Spec

theorem bcIdx_suffix {ext E pre suf : List Nat} {k : Nat} (he : ext = List.replicate k 1 ++ suf) (hE : E = pre ++ suf)
    (hl : ext.length ≤ E.length) {e : Nat} (hlt : e < E.prod) : bcIdx ext E e = e % suf.prod := by
  have key : ∀ (pre : List Nat) (e : Nat), e < (pre ++ suf).prod →
      bcIdxPadded (List.replicate pre.length 1 ++ suf) (pre ++ suf) e = e % suf.prod := by
    intro pre
    induction pre with
    | nil =>
      intro e h
      simp only [List.nil_append, List.length_nil, List.replicate_zero] at h ⊢
      rw [bcIdxPadded_self suf h, Nat.mod_eq_of_lt h]
    | cons a pre ih =>
      intro e h
      have hpos : 0 < (pre ++ suf).prod := by
        rcases Nat.eq_zero_or_pos (pre ++ suf).prod with h0 | h0
        · rw [List.cons_append, List.prod_cons, h0] at h; omega
        · exact h0
      rw [List.length_cons, List.replicate_succ, List.cons_append, List.cons_append, bcIdxPadded, if_pos rfl, zero_mul,
        zero_add, ih _ (Nat.mod_lt _ hpos), List.prod_append]
      exact Nat.mod_mul_left_mod _ _ _
  unfold bcIdx padShape
  have : List.replicate (E.length - ext.length) 1 ++ ext = List.replicate pre.length 1 ++ suf := by
    subst he
    subst hE
    simp only [List.length_append, List.length_replicate] at hl ⊢
    rw [← List.append_assoc, List.replicate_append_replicate]
    congr 2
    omega
  rw [this, hE]
  exact key pre e (by rw [← hE]; exact hlt)

theorem foldl_range_sum (n : Nat) (f : Nat → ℝ) :
    (List.range n).foldl (fun acc r => acc + f r) 0 = ∑ r ∈ Finset.range n, f r := by
  induction n with
  | zero => simp
  | succ n ih => rw [List.range_succ, List.foldl_append, Finset.sum_range_succ, ih]; rfl

/-- Folding a dictionary with fresh keys. -/
theorem foldlM_set {K β γ : Type} [DecidableEq K] (l : List (K × β)) (val : K × β → Py (Option γ))
    (r : K × β → Option γ) (hval : ∀ kv ∈ l, val kv = .ok (r kv)) (hn : (l.map Prod.fst).Nodup)
    (step : Dict K γ → K × β → Py (Dict K γ))
    (hstep : ∀ acc kv, kv ∈ l → step acc kv = (do
      match ← val kv with | none => return acc | some x => return Dict.set acc kv.1 x)) :
    l.foldlM step [] = .ok (l.filterMap fun kv => (r kv).map fun x => (kv.1, x)) := by
  have key : ∀ (l' : List (K × β)) (acc : Dict K γ), (∀ kv ∈ l', kv ∈ l) → (l'.map Prod.fst).Nodup →
      (∀ kv ∈ l', kv.1 ∉ Dict.keys acc) →
      l'.foldlM step acc = .ok (acc ++ l'.filterMap fun kv => (r kv).map fun x => (kv.1, x)) := by
    intro l'
    induction l' with
    | nil => intro acc _ _ _; simp
    | cons kv l' ih =>
      intro acc hm hn hacc
      rw [List.foldlM_cons, hstep acc kv (hm kv (by simp)), hval kv (hm kv (by simp))]
      simp only [List.map_cons, List.nodup_cons] at hn
      cases hr : r kv with
      | none =>
        simp only [py_bind_ok, py_pure]
        rw [ih acc (fun x hx => hm x (by simp [hx])) hn.2 fun x hx => hacc x (by simp [hx])]
        simp [hr]
      | some x =>
        simp only [py_bind_ok, py_pure]
        rw [Dict.set_of_not_mem _ (hacc kv (by simp))]
        rw [ih _ (fun x hx => hm x (by simp [hx])) hn.2]
        · simp [hr]
        · intro y hy
          rw [Dict.keys_append]
          simp only [List.mem_append, not_or]
          refine ⟨hacc y (by simp [hy]), ?_⟩
          simp only [Dict.keys, List.map_cons, List.map_nil, List.mem_singleton]
          intro h
          exact hn.1 (h ▸ List.mem_map_of_mem hy)
  simpa using key l [] (fun _ h => h) hn (by simp [Dict.keys])

/-- Number of the argument of a dense gradient. -/
def argOf1 (o : OptFun ℝ) (wrt : String) : Nat := o.fn.argNames.idxOf wrt

/-- Summed gradient of one argument. -/
noncomputable def gradVal (p : Problem ℝ) (o : OptFun ℝ) (s : Sym) (R : Reg) (d : List ℝ) (wrt : String) : NDArray ℝ :=
  let j := argOf1 o wrt
  let sz := (R.ext j ++ R.bs j).prod
  ⟨R.ext j ++ R.bs j, (List.range sz).map fun b => ∑ a ∈ Finset.range (R.E.prod * (R.bs j).prod / sz),
    s.grad wrt (argsOf p o R ((a * sz + b) / (R.bs j).prod) d) ((a * sz + b) % (R.bs j).prod)⟩

section
variable {p : Problem ℝ} {calls : List (Problem.Call ℝ)} {o : OptFun ℝ} {s : Sym} {R : Reg}
  (hp : ProblemOK p calls) (ho : FunOK p o s R) (hg : GradOK o R s.grad)
include hp ho hg
set_option linter.unusedSectionVars false

theorem grad_one {wrt : String} {g : List (NDArray ℝ) → NDArray ℝ} (h : (wrt, g) ∈ o.fn.grad) :
    argOf1 o wrt < o.fn.argNames.length ∧ R.var (argOf1 o wrt) = true ∧
    wrt = o.fn.argNames.getD (argOf1 o wrt) "" ∧
    Vectorised g ((List.range o.fn.argNames.length).map R.bs) (R.bs (argOf1 o wrt)) (s.grad wrt) ∧
    (∃ pre, R.E.prod = pre * (R.ext (argOf1 o wrt)).prod) ∧
    ∀ e < R.E.prod, bcIdx (R.ext (argOf1 o wrt)) R.E e = e % (R.ext (argOf1 o wrt)).prod := by
  obtain ⟨j, hj, hv, hw, hvec, k, pre, suf, h1, h2⟩ := hg.2.2 wrt g h
  have ha : argOf1 o wrt = j := by rw [argOf1, hw]; exact ho.idx hp hj
  rw [ha]
  have hsuf : (R.ext j).prod = suf.prod := by rw [h1]; simp
  refine ⟨hj, hv, hw, hvec, ⟨pre.prod, by rw [hsuf, h2, List.prod_append]⟩, fun e he => ?_⟩
  rw [hsuf]
  have := ho.canBc hp hj
  unfold canBroadcast at this
  simp only [Bool.and_eq_true, decide_eq_true_eq] at this
  exact bcIdx_suffix h1 h2 this.1 he

/-- The objective's gradient dictionary. -/
theorem grad_form (d : List ℝ) (hl : d.length = p.ndec) (vs : Dict String (NDArray ℝ)) (hvs : p.variables d = .ok vs) :
    o.grad vs = .ok ((o.fn.grad.filter fun wg => R.E.prod * (R.bs (argOf1 o wg.1)).prod ≠ 0).map fun wg =>
      (o.args.getD (argOf1 o wg.1) "", gradVal p o s R d wg.1)) := by
  obtain ⟨vals, h0, hlen, hvals, -⟩ := ho.vals hp d hl vs hvs
  unfold OptFun.grad
  rw [h0]
  simp only [py_bind_ok]
  have hdat : ∀ wg ∈ o.fn.grad, (wg.2 vals).data = (List.range (R.E.prod * (R.bs (argOf1 o wg.1)).prod)).map fun x =>
      s.grad wg.1 (argsOf p o R (x / (R.bs (argOf1 o wg.1)).prod) d) (x % (R.bs (argOf1 o wg.1)).prod) := by
    intro wg hwg
    obtain ⟨-, -, -, hvec, -, -⟩ := grad_one hp ho hg (wrt := wg.1) (g := wg.2) hwg
    rw [(ho.vec hp d hl vals vs hvs h0 hvec).2]
    exact range_flatMap_map _ _ fun e r => s.grad wg.1 (argsOf p o R e d) r
  have hgf : o.fn.gradFun vals = .ok ((o.fn.grad.filter fun wg => R.E.prod * (R.bs (argOf1 o wg.1)).prod ≠ 0).map
      fun wg => (wg.1, gradVal p o s R d wg.1)) := by
    unfold GenFun.gradFun
    rw [foldlM_set o.fn.grad (fun wd => (do
        let g := wd.2 vals
        if g.data.length = 0 then return none
        match o.fn.argNames.findIdx? (· = wd.1) with
        | none => .error .keyError
        | some i =>
          match vals[i]? with
          | none => .error .indexError
          | some a => return some (← GenFun.reshapeSum g a.shape) : Py (Option (NDArray ℝ))))
      (fun wg => if R.E.prod * (R.bs (argOf1 o wg.1)).prod = 0 then none else some (gradVal p o s R d wg.1))]
    · congr 1
      induction o.fn.grad with
      | nil => rfl
      | cons a l ih =>
        by_cases hz : R.E.prod * (R.bs (argOf1 o a.1)).prod = 0
        · rw [List.filterMap_cons, List.filter_cons]
          simp only [hz, if_true, Option.map_none, ne_eq, not_true_eq_false, decide_false, Bool.false_eq_true, if_false]
          exact ih
        · rw [List.filterMap_cons, List.filter_cons]
          simp only [hz, if_false, Option.map_some, ne_eq, not_false_eq_true, decide_true, if_true, List.map_cons]
          rw [ih]
    · intro wg hwg
      obtain ⟨hj, hv, hw, hvec, ⟨pre, hpre⟩, -⟩ := grad_one hp ho hg (wrt := wg.1) (g := wg.2) hwg
      have hd := hdat wg hwg
      have hdl : (wg.2 vals).data.length = R.E.prod * (R.bs (argOf1 o wg.1)).prod := by rw [hd]; simp
      simp only [hdl]
      by_cases hz : R.E.prod * (R.bs (argOf1 o wg.1)).prod = 0
      · simp [hz]
      · simp only [if_neg hz]
        have hfind : o.fn.argNames.findIdx? (fun a => decide (a = wg.1)) = some (argOf1 o wg.1) := by
          rw [List.findIdx?_eq_some_iff_getElem]
          have hg' : o.fn.argNames[argOf1 o wg.1] = wg.1 := by
            conv_rhs => rw [hw]
            simp [List.getD_eq_getElem?_getD, hj]
          refine ⟨hj, by simpa using hg', fun i hi => ?_⟩
          simp only [decide_eq_true_eq]
          intro h
          have := (ho.sig.getElem_inj_iff (hi := by omega) (hj := hj)).1 (h.trans hg'.symm)
          omega
        rw [hfind]
        obtain ⟨a, ha, -, -, hash⟩ := hvals _ hj
        simp only [ha]
        unfold GenFun.reshapeSum
        rw [hash, hdl]
        have hne : (R.ext (argOf1 o wg.1)).prod ≠ 0 := fun h => by rw [hpre, h] at hz; simp at hz
        have hbne : (R.bs (argOf1 o wg.1)).prod ≠ 0 := fun h => by rw [h] at hz; simp at hz
        have hmod : R.E.prod * (R.bs (argOf1 o wg.1)).prod % (R.ext (argOf1 o wg.1) ++ R.bs (argOf1 o wg.1)).prod = 0 := by
          rw [hpre, List.prod_append, Nat.mul_assoc]
          exact Nat.mul_mod_left _ _
        rw [if_neg (by
          rw [List.prod_append] at hmod ⊢
          simp [hne, hbne, hmod])]
        simp only [py_bind_ok, py_pure]
        congr 2
        unfold gradVal
        simp only
        congr 1
        refine List.map_congr_left fun b hb => ?_
        have hb := List.mem_range.1 hb
        rw [foldl_range_sum]
        refine Finset.sum_congr rfl fun r hr => ?_
        have hr := Finset.mem_range.1 hr
        have hx : r * (R.ext (argOf1 o wg.1) ++ R.bs (argOf1 o wg.1)).prod + b < R.E.prod * (R.bs (argOf1 o wg.1)).prod := by
          have := mul_add_lt hr hb
          rwa [Nat.div_mul_cancel (Nat.dvd_of_mod_eq_zero hmod)] at this
        rw [hd, ← List.getD_eq_getElem?_getD, getD_map_range 0 _ hx]
    · exact hg.2.1
    · intro acc wg hwg
      simp only
      split
      · rfl
      · cases o.fn.argNames.findIdx? (fun a => decide (a = wg.1)) with
        | none => rfl
        | some i =>
          simp only
          cases vals[i]? with
          | none => rfl
          | some a =>
            simp only
            cases GenFun.reshapeSum (wg.2 vals) a.shape <;> rfl
  rw [hgf]
  simp only [py_bind_ok, py_pure]
  obtain ⟨args, hargs⟩ := ho.made
  have hla : ∀ as, args = some as → as.length = o.fn.argNames.length ∧ as.Nodup := by
    intro as h
    subst h
    have h1 := ho.nargs
    have h2 := ho.args
    rw [hargs] at h1 h2
    exact ⟨by simpa [OptFun.mk'] using h1, by simpa [OptFun.mk'] using h2⟩
  have := C32_renameStr o.shape o.fn args ho.sig hla
    ((o.fn.grad.filter fun wg => R.E.prod * (R.bs (argOf1 o wg.1)).prod ≠ 0).map
      fun wg => (wg.1, gradVal p o s R d wg.1)) (by
        simp only [Dict.keys, List.map_map, Function.comp_def]
        exact hg.2.1.sublist (List.Sublist.map _ List.filter_sublist)) (by
        intro kv hkv
        obtain ⟨wg, hwg, rfl⟩ := List.mem_map.1 hkv
        obtain ⟨hj, -, hw, -⟩ := grad_one hp ho hg (wrt := wg.1) (g := wg.2) (List.mem_filter.1 hwg).1
        simp only
        rw [hw]
        simp [List.getD_eq_getElem?_getD, hj])
  rw [← hargs] at this
  rw [this]
  simp [argOf1, Function.comp_def]

/-- One gradient block scattered into the decision vector. -/
theorem grad_scat (d : List ℝ) {wrt : String} {g : List (NDArray ℝ) → NDArray ℝ} (h : (wrt, g) ∈ o.fn.grad)
    (hz : R.E.prod * (R.bs (argOf1 o wrt)).prod ≠ 0) (i : Nat) :
    scat (R.ext (argOf1 o wrt) ++ R.bs (argOf1 o wrt)).prod (convOf (specOf p o (argOf1 o wrt)))
      (fun q => (gradVal p o s R d wrt).data.getD q 0) i =
    ∑ e ∈ Finset.range R.E.prod, ∑ k ∈ Finset.range (R.bs (argOf1 o wrt)).prod,
      s.grad wrt (argsOf p o R e d) k * (if posOf p o R e (argOf1 o wrt) k = i then 1 else 0) := by
  obtain ⟨hj, hv, hw, hvec, ⟨pre, hpre⟩, hbc⟩ := grad_one hp ho hg h
  generalize haj : argOf1 o wrt = j at *
  have hne : 0 < (R.ext j).prod := Nat.pos_of_ne_zero fun h => by rw [hpre, h] at hz; simp at hz
  have hbne : 0 < (R.bs j).prod := Nat.pos_of_ne_zero fun h => by rw [h] at hz; simp at hz
  set sz := (R.ext j ++ R.bs j).prod with hsz
  have hszv : sz = (R.ext j).prod * (R.bs j).prod := by rw [hsz, List.prod_append]
  have hszpos : 0 < sz := by rw [hszv]; exact Nat.mul_pos hne hbne
  have hdiv : R.E.prod * (R.bs j).prod / sz = pre := by
    rw [hpre, hszv, Nat.mul_assoc]
    exact Nat.mul_div_cancel _ (Nat.mul_pos hne hbne)
  set G : Nat → ℝ := fun x => s.grad wrt (argsOf p o R (x / (R.bs j).prod) d) (x % (R.bs j).prod) with hG
  have h1 : scat sz (convOf (specOf p o j)) (fun q => (gradVal p o s R d wrt).data.getD q 0) i =
      ∑ x ∈ Finset.range (pre * sz), if convOf (specOf p o j) (x % sz) = i then G x else 0 := by
    rw [sum_range_mul, Finset.sum_comm]
    unfold scat
    refine Finset.sum_congr rfl fun q hq => ?_
    have hq := Finset.mem_range.1 hq
    have hmod : ∀ a, (a * sz + q) % sz = q := fun a => by
      rw [Nat.add_comm, Nat.add_mul_mod_self_right, Nat.mod_eq_of_lt hq]
    simp only [hmod]
    split
    · rw [← hdiv]
      have : (gradVal p o s R d wrt).data = (List.range sz).map fun b =>
          ∑ a ∈ Finset.range (R.E.prod * (R.bs j).prod / sz), G (a * sz + b) := by
        rw [hG, hsz, ← haj]
        rfl
      rw [this, getD_map_range 0 _ hq]
    · simp
  have hprod : pre * sz = R.E.prod * (R.bs j).prod := by rw [hpre, hszv, Nat.mul_assoc]
  rw [h1, hprod, sum_range_mul]
  refine Finset.sum_congr rfl fun e he => Finset.sum_congr rfl fun k hk => ?_
  have he := Finset.mem_range.1 he
  have hk := Finset.mem_range.1 hk
  have e1 : (e * (R.bs j).prod + k) / (R.bs j).prod = e := by
    rw [Nat.add_comm, Nat.add_mul_div_right _ _ hbne, Nat.div_eq_of_lt hk, Nat.zero_add]
  have e2 : (e * (R.bs j).prod + k) % (R.bs j).prod = k := by
    rw [Nat.add_comm, Nat.add_mul_mod_self_right, Nat.mod_eq_of_lt hk]
  have e3 : (e * (R.bs j).prod + k) % sz = bcIdx (R.ext j) R.E e * (R.bs j).prod + k := by
    rw [hbc e he, hszv]
    conv_lhs => rw [← Nat.div_add_mod e (R.ext j).prod, Nat.add_mul, Nat.add_assoc]
    rw [show (R.ext j).prod * (e / (R.ext j).prod) * (R.bs j).prod =
      (e / (R.ext j).prod) * ((R.ext j).prod * (R.bs j).prod) by ring, Nat.add_comm, Nat.add_mul_mod_self_right]
    exact Nat.mod_eq_of_lt (mul_add_lt (Nat.mod_lt _ hne) hk)
  rw [hG]
  simp only [e1, e2, e3]
  unfold posOf
  split <;> simp

theorem gradVal_shape (d : List ℝ) (wrt : String) :
    (gradVal p o s R d wrt).shape = R.ext (argOf1 o wrt) ++ R.bs (argOf1 o wrt) ∧ (gradVal p o s R d wrt).WF := by
  simp [gradVal, NDArray.WF]

end

section
variable {p : Problem ℝ} {calls : List (Problem.Call ℝ)} (S : OptFun ℝ → Sym) (R : OptFun ℝ → Reg)
  (hp : ProblemOK p calls) (h : ∀ o ∈ p.objectives, FunOK p o (S o) (R o) ∧ GradOK o (R o) (S o).grad)
include hp h

/-- `obj_grad`. -/
theorem objGrad_form (d : List ℝ) (hl : d.length = p.ndec) :
    ∃ g, p.objGrad d = .ok g ∧ g.length = p.ndec ∧ ∀ i < p.ndec, g.getD i 0 =
      (p.objectives.map fun o => (o.fn.grad.map fun wg => ∑ e ∈ Finset.range (R o).E.prod,
        ∑ k ∈ Finset.range ((R o).bs (argOf1 o wg.1)).prod, (S o).grad wg.1 (argsOf p o (R o) e d) k *
          (if posOf p o (R o) e (argOf1 o wg.1) k = i then 1 else 0)).sum).sum := by
  obtain ⟨vs, hvs, -, -⟩ := variables_eq hp d hl
  unfold Problem.objGrad
  rw [hvs]
  simp only [py_bind_ok]
  have inner : ∀ o ∈ p.objectives, ∀ (l : List (String × (List (NDArray ℝ) → NDArray ℝ))) (g0 : List ℝ),
      (∀ wg ∈ l, wg ∈ o.fn.grad) → g0.length = p.ndec →
      ∃ g, ((l.filter fun wg => (R o).E.prod * ((R o).bs (argOf1 o wg.1)).prod ≠ 0).map fun wg =>
        (o.args.getD (argOf1 o wg.1) "", gradVal p o (S o) (R o) d wg.1)).foldlM (fun grad kv => do
          (← p.variableSpec kv.1).addTo grad kv.2) g0 = (.ok g : Py (List ℝ)) ∧ g.length = p.ndec ∧
        ∀ i < p.ndec, g.getD i 0 = g0.getD i 0 + (l.map fun wg => ∑ e ∈ Finset.range (R o).E.prod,
          ∑ k ∈ Finset.range ((R o).bs (argOf1 o wg.1)).prod, (S o).grad wg.1 (argsOf p o (R o) e d) k *
          (if posOf p o (R o) e (argOf1 o wg.1) k = i then 1 else 0)).sum := by
    intro o hmem l
    obtain ⟨ho, hg⟩ := h o hmem
    induction l with
    | nil => intro g0 _ h0; exact ⟨g0, by simp, h0, by simp⟩
    | cons wg l ih =>
      intro g0 hm h0
      have hwg := hm wg (by simp)
      by_cases hz : (R o).E.prod * ((R o).bs (argOf1 o wg.1)).prod = 0
      · obtain ⟨g, h1, h2, h3⟩ := ih g0 (fun x hx => hm x (by simp [hx])) h0
        refine ⟨g, ?_, h2, fun i hi => ?_⟩
        · rw [List.filter_cons]
          simpa [hz] using h1
        · rw [h3 i hi, List.map_cons, List.sum_cons]
          rcases Nat.mul_eq_zero.1 hz with h0 | h0
          · rw [h0]; simp
          · rw [h0]; simp
      · obtain ⟨hj, hv, -⟩ := grad_one hp ho hg (wrt := wg.1) (g := wg.2) hwg
        obtain ⟨s1, s2⟩ := ho.spec hp hj hv
        obtain ⟨v1, v2⟩ := gradVal_shape (p := p) hp ho hg d wg.1
        have hadd := (spec_gathers hp s1).add g0 (gradVal p o (S o) (R o) d wg.1) h0 (by rw [v1, s2]) v2
        obtain ⟨g, h1, h2, h3⟩ := ih _ (fun x hx => hm x (by simp [hx])) (by
          show ((List.range p.ndec).map fun j => g0.getD j 0 + scat (specOf p o (argOf1 o wg.1)).shape.prod
            (convOf (specOf p o (argOf1 o wg.1))) (fun i => (gradVal p o (S o) (R o) d wg.1).data.getD i 0) j).length = _
          simp)
        refine ⟨g, ?_, h2, fun i hi => ?_⟩
        · rw [List.filter_cons, if_pos (by simpa using hz), List.map_cons, List.foldlM_cons]
          simp only
          rw [s1]
          simp only [py_bind_ok]
          rw [hadd]
          exact h1
        · rw [h3 i hi, getD_map_range 0 _ hi, List.map_cons, List.sum_cons, s2,
            grad_scat hp ho hg d (wrt := wg.1) (g := wg.2) hwg hz i, add_assoc]
  have outer : ∀ (l : List (OptFun ℝ)) (g0 : List ℝ), (∀ o ∈ l, o ∈ p.objectives) → g0.length = p.ndec →
      ∃ g, l.foldlM (fun grad o => do
          (← o.grad vs).foldlM (fun grad kv => do (← p.variableSpec kv.1).addTo grad kv.2) grad) g0 =
        (.ok g : Py (List ℝ)) ∧ g.length = p.ndec ∧
        ∀ i < p.ndec, g.getD i 0 = g0.getD i 0 + (l.map fun o => (o.fn.grad.map fun wg =>
          ∑ e ∈ Finset.range (R o).E.prod, ∑ k ∈ Finset.range ((R o).bs (argOf1 o wg.1)).prod,
            (S o).grad wg.1 (argsOf p o (R o) e d) k *
            (if posOf p o (R o) e (argOf1 o wg.1) k = i then 1 else 0)).sum).sum := by
    intro l
    induction l with
    | nil => intro g0 _ h0; exact ⟨g0, by simp, h0, by simp⟩
    | cons o l ih =>
      intro g0 hm h0
      obtain ⟨ho, hg⟩ := h o (hm o (by simp))
      obtain ⟨g1, a1, a2, a3⟩ := inner o (hm o (by simp)) o.fn.grad g0 (fun _ h => h) h0
      obtain ⟨g, b1, b2, b3⟩ := ih g1 (fun x hx => hm x (by simp [hx])) a2
      refine ⟨g, ?_, b2, fun i hi => ?_⟩
      · rw [List.foldlM_cons, grad_form hp ho hg d hl vs hvs]
        simp only [py_bind_ok]
        rw [a1]
        exact b1
      · rw [b3 i hi, a3 i hi, List.map_cons, List.sum_cons, add_assoc]
  obtain ⟨g, h1, h2, h3⟩ := outer p.objectives (List.replicate p.ndec 0) (fun _ h => h) (by simp)
  refine ⟨g, h1, h2, fun i hi => ?_⟩
  rw [h3 i hi]
  simp [List.getD_eq_getElem?_getD, hi]

/-- Derivative of `obj`. -/
theorem obj_deriv (d : List ℝ) (hl : d.length = p.ndec)
    (hd : ∀ o ∈ p.objectives, ∀ e < (R o).E.prod, GradRight o (S o) (R o) (argsOf p o (R o) e d)) (i : Nat)
    (hi : i < p.ndec) :
    HasDerivAt (fun t => wsum p p.objectives id S R (fun _ _ _ => 1) (d.set i t))
      (p.objectives.map fun o => (o.fn.grad.map fun wg => ∑ e ∈ Finset.range (R o).E.prod,
        ∑ k ∈ Finset.range ((R o).bs (argOf1 o wg.1)).prod, (S o).grad wg.1 (argsOf p o (R o) e d) k *
          (if posOf p o (R o) e (argOf1 o wg.1) k = i then 1 else 0)).sum).sum (d.getD i 0) := by
  unfold wsum
  refine hasDeriv_list_sum (p := p) hp _ _ _ _ fun o hmem => ?_
  obtain ⟨ho, hg⟩ := h o hmem
  rw [← list_sum_finset]
  refine HasDerivAt.fun_sum fun e he => ?_
  have he := Finset.mem_range.1 he
  simp only [id, hg.1, List.prod_nil, Finset.range_one, Finset.sum_singleton, one_mul]
  have hi' : i < d.length := by omega
  have h1 := chain1 (d := d) (t := d.getD i 0) (i := i) (f := fun y => (S o).F y 0) (pos := posOf p o (R o) e)
    (K := constOf p o (R o) e) hi' (by
      rw [set_getD_self]
      exact hd o hmem e he)
  refine h1.congr_deriv ?_
  symm
  change _ = entSum _ _ _ fun j k => gradEntry o (S o) (argsOf p o (R o) e d) j k *
    (if posOf p o (R o) e j k = i then 1 else 0)
  unfold gradEntry
  simp only [list_sum_mul, entSum_list]
  refine congrArg _ (List.map_congr_left fun wg hwg => ?_)
  obtain ⟨hj, hv, hw, -⟩ := grad_one hp ho hg (wrt := wg.1) (g := wg.2) hwg
  unfold entSum
  symm
  rw [Finset.sum_eq_single (argOf1 o wg.1)]
  · rw [if_pos hv]
    refine Finset.sum_congr rfl fun k _ => ?_
    beta_reduce
    rw [if_pos hw]
  · intro j hj' hne
    split
    · refine Finset.sum_eq_zero fun k _ => ?_
      beta_reduce
      rw [if_neg, zero_mul]
      intro h
      apply hne
      rw [argOf1, h]
      exact (ho.idx hp (Finset.mem_range.1 hj')).symm
    · rfl
  · intro h
    exact absurd (Finset.mem_range.2 hj) h

end

end Ceacoest
