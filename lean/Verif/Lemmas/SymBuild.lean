import Verif.Props.SymOptim
import Verif.Model.SymCalls

/-! # What a sequence of `add_objective` and `add_constraint` calls leaves in the model -/

namespace Ceacoest
open Spec
variable {X : Type}

/-- Plain names, for which the naming scheme has no clashes (C33). -/
def SymCall.Plain (c : SymCall) : Prop := DerivId.Plain.PlainFn c.fname ∧ ∀ a ∈ c.order, DerivId.Plain.PlainVar a

/-- The function that a derivative belongs to. -/
def DerivId.fn : DerivId → String
  | .first f _ => f
  | .second f _ _ => f

theorem mem_derivNames {c : SymCall} (h : c.Plain) {d : String} (hd : d ∈ derivNames c.fname c.order) :
    ∃ i : DerivId, i.Plain ∧ i.name = d ∧ i.fn = c.fname := by
  rcases List.mem_append.1 hd with hd | hd
  · obtain ⟨a, ha, rfl⟩ := List.mem_map.1 hd
    exact ⟨.first c.fname a, ⟨h.1, h.2 a ha⟩, rfl, rfl⟩
  · obtain ⟨p, hp, rfl⟩ := List.mem_map.1 hd
    obtain ⟨h1, h2⟩ := pairs_mem hp
    exact ⟨.second c.fname p.1 p.2, ⟨h.1, h.2 _ h1, h.2 _ h2⟩, rfl, rfl⟩

theorem noClash_of_ne {i j : DerivId} (hi : i.Plain) (hj : j.Plain) (hne : i ≠ j) : NoClash i.name j.name := by
  have key : ∀ s ∈ attrSuffixes, ∀ s' ∈ attrSuffixes, i.name ++ s ≠ j.name ++ s' :=
    fun s hs s' hs' e => hne (((C33_partial i j hi hj s s' hs hs').1 e).1)
  have h0 : ("" : String) ∈ attrSuffixes := by decide
  have hv : "_val" ∈ attrSuffixes := by decide
  refine ⟨fun e => key "" h0 "" h0 (by rw [e]), fun e => key "_val" hv "" h0 (by rw [e]; simp), fun e => key "" h0 "_val" hv ?_⟩
  rw [e]; simp

theorem derivNames_noClash {c : SymCall} (h : c.Plain) (hn : c.order.Nodup) :
    (derivNames c.fname c.order).Pairwise NoClash := by
  unfold derivNames
  rw [List.pairwise_append, List.pairwise_map, List.pairwise_map]
  refine ⟨?_, ?_, ?_⟩
  · refine List.Pairwise.imp_of_mem (fun {a b} ha hb hne => ?_) hn
    exact noClash_of_ne (i := .first c.fname a) (j := .first c.fname b) ⟨h.1, h.2 a ha⟩ ⟨h.1, h.2 b hb⟩ (by simpa using hne)
  · refine List.Pairwise.imp_of_mem (fun {a b} ha hb hne => ?_) (pairs_nodup hn)
    obtain ⟨a1, a2⟩ := pairs_mem ha
    obtain ⟨b1, b2⟩ := pairs_mem hb
    refine noClash_of_ne (i := .second c.fname a.1 a.2) (j := .second c.fname b.1 b.2) ⟨h.1, h.2 _ a1, h.2 _ a2⟩ ⟨h.1, h.2 _ b1, h.2 _ b2⟩ ?_
    intro e
    simp only [DerivId.second.injEq, true_and] at e
    exact hne (Prod.ext e.1 e.2)
  · intro x hx y hy
    obtain ⟨a, ha, rfl⟩ := List.mem_map.1 hx
    obtain ⟨p, hp, rfl⟩ := List.mem_map.1 hy
    obtain ⟨h1, h2⟩ := pairs_mem hp
    exact noClash_of_ne (i := .first c.fname a) (j := .second c.fname p.1 p.2) ⟨h.1, h.2 a ha⟩ ⟨h.1, h.2 _ h1, h.2 _ h2⟩ (by simp)

/-- Attributes of other functions do not clash. -/
theorem derivNames_disjoint {c c' : SymCall} (h : c.Plain) (h' : c'.Plain) (hne : c.fname ≠ c'.fname) {d d' : String}
    (hd : d ∈ derivNames c.fname c.order) (hd' : d' ∈ derivNames c'.fname c'.order) : NoClash d d' := by
  obtain ⟨i, hi, rfl, hif⟩ := mem_derivNames h hd
  obtain ⟨j, hj, rfl, hjf⟩ := mem_derivNames h' hd'
  exact noClash_of_ne hi hj fun e => hne (by rw [← hif, ← hjf, e])

theorem fname_not_deriv {c : SymCall} (h : c.Plain) {f : String} (hf : SepFree f.toList) :
    f ∉ derivNames c.fname c.order ∧ ∀ e ∈ derivNames c.fname c.order, f ≠ e ++ "_val" := by
  have h0 : ("" : String) ∈ attrSuffixes := by decide
  have hv : "_val" ∈ attrSuffixes := by decide
  constructor
  · intro hm
    obtain ⟨i, hi, hn, -⟩ := mem_derivNames h hm
    exact (C33_partial i i hi hi "" "" h0 h0).2 f hf (by rw [hn]; simp)
  · rintro e he rfl
    obtain ⟨i, hi, hn, -⟩ := mem_derivNames h he
    exact (C33_partial i i hi hi "_val" "_val" hv hv).2 _ hf (by rw [hn])

theorem HasSparse.extends {S : Sym2Num X} {m0 : SymModel X} {f : SymFn X} {wrt : List String} {d : String} {m m' : SymModel X}
    {ds : List String} (h : HasSparse S m0 f wrt d m) (hfr : Extends ds m m') (hd : ∀ e ∈ ds, NoClash d e) : HasSparse S m0 f wrt d m' := by
  have h1 : d ∉ ds := fun hm => (hd d hm).1 rfl
  refine ⟨by rw [hfr.nzind d h1]; exact h.1, by rw [hfr.nnz d h1]; exact h.2.1, ?_⟩
  rw [hfr.funcs (d ++ "_val")]
  · exact h.2.2
  · exact fun hm => (hd _ hm).2.1 rfl
  · intro e he hee
    have : d = e := by
      have := congrArg String.toList hee
      simp only [String.toList_append] at this
      exact String.toList_inj.1 (List.append_cancel_right this)
    exact (hd e he).1 this

/-- What the call `c` for the function `f` leaves in the model `m`. -/
structure Built (S : Sym2Num X) (m0 : SymModel X) (f : SymFn X) (c : SymCall) (m : SymModel X) : Prop where
  fn : Dict.get? m.funcs c.fname = some f
  obj : c.objective = true → Dict.get? m.objectives c.fname =
    some ⟨c.order.map fun a => (a, firstDerivName c.fname a), kept S m0 f (hessItems c.fname c.order)⟩
  con : c.objective = false → Dict.get? m.constraints c.fname =
    some ⟨f.outShape, kept S m0 f (jacItems c.fname c.order), kept S m0 f (hessItems c.fname c.order)⟩
  dense : c.objective = true → ∀ a ∈ c.order, Dict.get? m.funcs (firstDerivName c.fname a) = some (S.deriv f [a])
  jac : c.objective = false → ∀ it ∈ jacItems c.fname c.order, HasSparse S m0 f it.1 it.2 m
  hess : ∀ it ∈ hessItems c.fname c.order, HasSparse S m0 f it.1 it.2 m

theorem found_congr {S : Sym2Num X} {m m0 : SymModel X} (h : m.shapes = m0.shapes) (f : SymFn X) (wrt : List String) :
    found S m f wrt = found S m0 f wrt := by
  unfold found
  rw [h]

theorem kept_congr {S : Sym2Num X} {m m0 : SymModel X} (h : m.shapes = m0.shapes) (f : SymFn X) (items : List (List String × String)) :
    kept S m f items = kept S m0 f items := by
  unfold kept
  simp only [found_congr h]

theorem HasSparse.congr {S : Sym2Num X} {m0 m1 m : SymModel X} {f : SymFn X} {wrt : List String} {d : String}
    (hs : m1.shapes = m0.shapes) (h : HasSparse S m1 f wrt d m) : HasSparse S m0 f wrt d m := by
  unfold HasSparse at h
  rw [found_congr hs] at h
  exact h

/-- One call. -/
theorem add_ok (S : Sym2Num X) (m0 m : SymModel X) (c : SymCall) (f : SymFn X) (hs : m.shapes = m0.shapes)
    (hf : Dict.get? m.funcs c.fname = some f) (hn : c.order.Nodup) (hp : c.Plain) (hd : DerivsOK S m0 f c.order) :
    ∃ m', m.add S c = .ok m' ∧ Extends (derivNames c.fname c.order) m m' ∧ Built S m0 f c m' ∧
      ∀ n, n ≠ c.fname → Dict.get? m'.objectives n = Dict.get? m.objectives n ∧
        Dict.get? m'.constraints n = Dict.get? m.constraints n := by
  have hd' : DerivsOK S m f c.order := by
    unfold DerivsOK
    rw [hs]
    exact hd
  unfold SymModel.add
  cases hb : c.objective with
  | true =>
    obtain ⟨m', e, hx, hcon, hobj, hfn, hsp⟩ := addObjective_ok S m c.fname f c.order hf hn hd'
    obtain ⟨h1, h2⟩ := hsp (derivNames_noClash hp hn)
    refine ⟨m', by rw [if_pos rfl]; exact e, hx, ⟨hfn, fun _ => ?_, fun h => absurd h (by simp [hb]), fun _ => h1,
      fun h => absurd h (by simp [hb]), fun it hit => (h2 it hit).congr hs⟩, fun n hne => ⟨?_, by rw [hcon]⟩⟩
    · rw [hobj, Dict.get?_set, if_pos rfl, kept_congr hs]
    · rw [hobj, Dict.get?_set, if_neg hne.symm, Dict.get?_set, if_neg hne.symm]
  | false =>
    obtain ⟨m', e, hx, hobj, hcon, hfn, hsp⟩ := addConstraint_ok S m c.fname f c.order hf hn hd'
    obtain ⟨h1, h2⟩ := hsp (derivNames_noClash hp hn)
    refine ⟨m', by rw [if_neg (by simp)]; exact e, hx, ⟨hfn, fun h => absurd h (by simp [hb]), fun _ => ?_, fun h => absurd h (by simp [hb]),
      fun _ it hit => (h1 it hit).congr hs, fun it hit => (h2 it hit).congr hs⟩, fun n hne => ⟨by rw [hobj], ?_⟩⟩
    · rw [hcon, Dict.get?_set, if_pos rfl, kept_congr hs, kept_congr hs]
    · rw [hcon, Dict.get?_set, if_neg hne.symm, Dict.get?_set, if_neg hne.symm]

/-- Calls for other functions leave it there. -/
theorem Built.extends {S : Sym2Num X} {m0 : SymModel X} {f : SymFn X} {c c' : SymCall} {m m' : SymModel X} (h : Built S m0 f c m)
    (hp : c.Plain) (hp' : c'.Plain) (hne : c.fname ≠ c'.fname) (hx : Extends (derivNames c'.fname c'.order) m m')
    (ho : Dict.get? m'.objectives c.fname = Dict.get? m.objectives c.fname)
    (hc : Dict.get? m'.constraints c.fname = Dict.get? m.constraints c.fname) : Built S m0 f c m' := by
  have hmemJ : ∀ it ∈ jacItems c.fname c.order, it.2 ∈ derivNames c.fname c.order := by
    intro it hit
    rw [derivNames_eq]
    exact List.mem_append_left _ (List.mem_map_of_mem hit)
  have hmemH : ∀ it ∈ hessItems c.fname c.order, it.2 ∈ derivNames c.fname c.order := by
    intro it hit
    rw [derivNames_eq]
    exact List.mem_append_right _ (List.mem_map_of_mem hit)
  refine ⟨?_, fun hb => by rw [ho]; exact h.obj hb, fun hb => by rw [hc]; exact h.con hb, fun hb a ha => ?_,
    fun hb it hit => (h.jac hb it hit).extends hx fun e he => derivNames_disjoint hp hp' hne (hmemJ it hit) he,
    fun it hit => (h.hess it hit).extends hx fun e he => derivNames_disjoint hp hp' hne (hmemH it hit) he⟩
  · obtain ⟨h1, h2⟩ := fname_not_deriv hp' hp.1.1
    rw [hx.funcs _ h1 h2]
    exact h.fn
  · have hm : firstDerivName c.fname a ∈ derivNames c.fname c.order := List.mem_append_left _ (List.mem_map_of_mem ha)
    rw [hx.funcs]
    · exact h.dense hb a ha
    · exact fun he => (derivNames_disjoint hp hp' hne hm he).1 rfl
    · exact fun e he => (derivNames_disjoint hp hp' hne hm he).2.2

/-- The calls `calls` on the model `m0` are legitimate: distinct functions of the model with plain names, differentiated with
respect to their decision arguments in some order. -/
structure CallsOK (S : Sym2Num X) (m0 : SymModel X) (fn : String → SymFn X) (calls : List SymCall) : Prop where
  nodup : (calls.map SymCall.fname).Nodup
  plain : ∀ c ∈ calls, c.Plain
  funcs : ∀ c ∈ calls, Dict.get? m0.funcs c.fname = some (fn c.fname)
  wrt : ∀ c ∈ calls, m0.IsWrt (fn c.fname) c.order
  derivs : ∀ c ∈ calls, DerivsOK S m0 (fn c.fname) c.order

theorem addAll_aux (S : Sym2Num X) (m0 : SymModel X) (fn : String → SymFn X) (calls : List SymCall) : ∀ m : SymModel X,
    CallsOK S m0 fn calls → m.shapes = m0.shapes → m.decision = m0.decision →
    (∀ d, SepFree d.toList → Dict.get? m.funcs d = Dict.get? m0.funcs d) →
    ∃ m', m.addAll S calls = .ok m' ∧ m'.shapes = m0.shapes ∧ m'.decision = m0.decision ∧
      (∀ d, SepFree d.toList → Dict.get? m'.funcs d = Dict.get? m0.funcs d) ∧
      (∀ c ∈ calls, Built S m0 (fn c.fname) c m') ∧
      ∀ c f, c.Plain → c.fname ∉ calls.map SymCall.fname → Built S m0 f c m → Built S m0 f c m' := by
  induction calls with
  | nil => exact fun m _ h1 h2 h3 => ⟨m, rfl, h1, h2, h3, by simp, fun c f _ _ h => h⟩
  | cons c calls ih =>
    intro m hok h1 h2 h3
    have hcp := hok.plain c (by simp)
    have hfm : Dict.get? m.funcs c.fname = some (fn c.fname) := by
      rw [h3 _ hcp.1.1]
      exact hok.funcs c (by simp)
    obtain ⟨m1, e1, hx, hb, hrest⟩ := add_ok S m0 m c _ h1 hfm (hok.wrt c (by simp)).1 hcp (hok.derivs c (by simp))
    have hnd := hok.nodup
    rw [List.map_cons, List.nodup_cons] at hnd
    obtain ⟨m2, e2, s2, d2, f2, b2, p2⟩ := ih m1
      ⟨hnd.2, fun c h => hok.plain c (by simp [h]), fun c h => hok.funcs c (by simp [h]), fun c h => hok.wrt c (by simp [h]),
        fun c h => hok.derivs c (by simp [h])⟩ (hx.shapes.trans h1) (hx.decision.trans h2) (fun d hd => by
          obtain ⟨n1, n2⟩ := fname_not_deriv hcp hd
          rw [hx.funcs d n1 n2, h3 d hd])
    refine ⟨m2, ?_, s2, d2, f2, ?_, ?_⟩
    · unfold SymModel.addAll at e2 ⊢
      rw [List.foldlM_cons, e1]
      exact e2
    · intro c' hc'
      rcases List.mem_cons.1 hc' with rfl | hc'
      · exact p2 _ _ hcp hnd.1 hb
      · exact b2 c' hc'
    · intro c' f hp' hnot hb'
      rw [List.map_cons, List.mem_cons, not_or] at hnot
      exact p2 c' f hp' hnot.2 (hb'.extends hp' hcp hnot.1 hx (hrest _ hnot.1).1 (hrest _ hnot.1).2)

/-- All calls. -/
theorem addAll_ok (S : Sym2Num X) (m0 : SymModel X) (fn : String → SymFn X) (calls : List SymCall) (h : CallsOK S m0 fn calls) :
    ∃ m', m0.addAll S calls = .ok m' ∧ m'.shapes = m0.shapes ∧ m'.decision = m0.decision ∧
      (∀ d, SepFree d.toList → Dict.get? m'.funcs d = Dict.get? m0.funcs d) ∧
      ∀ c ∈ calls, Built S m0 (fn c.fname) c m' := by
  obtain ⟨m', h1, h2, h3, h4, h5, -⟩ := addAll_aux S m0 fn calls m0 h rfl rfl fun _ _ => rfl
  exact ⟨m', h1, h2, h3, h4, h5⟩

end Ceacoest
