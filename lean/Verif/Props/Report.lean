import Verif.Props.ArrayCmp
import Mathlib.Tactic.NormNum

/-! # C95: the report of a failed comparison -/

namespace Ceacoest.ArrayCmp
open Spec

/-- The entries at `idx` differ by too much. -/
def Violated (atol rtol : ℝ) (a b : NDArray ℝ) (idx : List Nat) : Prop :=
  atol + rtol * |bcEntry b idx| ≤ |bcEntry a idx - bcEntry b idx|

theorem compare_arrays {a b : NDArray ℝ} (ha : a.WF) (hb : b.WF) (atol rtol : ℝ) {sh : List Nat}
    (h : BroadcastShape a.shape b.shape sh) :
    ∃ err ok, (ArrayDiff.mk (.ok a) (.ok b)).compare atol rtol = .ok (ok.data.all id, .compared atol rtol a b err ok) ∧
      err.shape = sh ∧ ok.shape = sh ∧ err.WF ∧ ok.WF ∧
      ∀ idx, InBounds sh idx → err.data.getD (cOrder sh idx) 0 = bcEntry a idx - bcEntry b idx ∧
        (ok.data.getD (cOrder sh idx) true = false ↔ Violated atol rtol a b idx) := by
  have hs := (bcShape2_iff _ _ _).2 h
  unfold ArrayDiff.compare broadcastable
  simp only [hs, Option.isSome_some, if_true]
  rw [binop_ok _ 0 0 ha hb h]
  simp only [py_bind_ok]
  have hbw : (⟨b.shape, b.data.map fun y => atol + rtol * |y|⟩ : NDArray ℝ).WF := by simpa [NDArray.WF] using hb
  rw [binop_ok _ 0 (atol + rtol * |0|) (by simp [NDArray.WF]) hbw (sh := sh) h.again]
  refine ⟨_, _, rfl, rfl, rfl, by simp [NDArray.WF], by simp [NDArray.WF], fun idx hi => ?_⟩
  have hlt := cOrder_lt hi
  have e1 : ((List.range sh.prod).map fun i => a.data.getD (bcIdx a.shape sh i) 0 - b.data.getD (bcIdx b.shape sh i) 0).getD
      (cOrder sh idx) 0 = bcEntry a idx - bcEntry b idx := by
    rw [getD_map_range 0 _ hlt, bcIdx_entry ha h.left hi, bcIdx_entry hb h.right hi]
  refine ⟨e1, ?_⟩
  rw [getD_map_range true _ hlt, bcIdx_self sh hlt, e1]
  have e2 : (b.data.map fun y => atol + rtol * |y|).getD (bcIdx b.shape sh (cOrder sh idx)) (atol + rtol * |0|) =
      atol + rtol * |b.data.getD (bcIdx b.shape sh (cOrder sh idx)) 0| := by
    simp only [List.getD_eq_getElem?_getD, List.getElem?_map]
    cases b.data[bcIdx b.shape sh (cOrder sh idx)]? <;> rfl
  rw [e2, bcIdx_entry hb h.right hi, decide_eq_false_iff_not, not_lt]
  rfl

theorem getD_elem {l : List Bool} {d : Bool} {n : Nat} (h : n < l.length) : l.getD n d = l[n] := by
  simp [List.getD_eq_getElem?_getD, h]

theorem unravel_ok (sh : List Nat) (n : Nat) (h : n < sh.prod) : InBounds sh (unravel sh n) ∧ cOrder sh (unravel sh n) = n := by
  induction sh generalizing n with
  | nil => exact ⟨trivial, by simp at h; simp [cOrder, h]⟩
  | cons d sh ih =>
    rw [List.prod_cons] at h
    have hp : 0 < sh.prod := Nat.pos_of_ne_zero fun h0 => by simp [h0] at h
    obtain ⟨h1, h2⟩ := ih (n % sh.prod) (Nat.mod_lt _ hp)
    refine ⟨⟨Nat.div_lt_of_lt_mul (by rw [Nat.mul_comm]; exact h), h1⟩, ?_⟩
    rw [unravel, cOrder, h2]
    exact Nat.div_add_mod' n sh.prod

theorem unravel_cOrder {sh idx : List Nat} (h : InBounds sh idx) : unravel sh (cOrder sh idx) = idx := by
  induction sh generalizing idx with
  | nil => cases idx with
    | nil => rfl
    | cons _ _ => exact h.elim
  | cons d sh ih =>
    cases idx with
    | nil => exact h.elim
    | cons i is =>
      have hlt := cOrder_lt h.2
      have hp : 0 < sh.prod := lt_of_le_of_lt (Nat.zero_le _) hlt
      rw [cOrder, unravel, Nat.mul_comm, Nat.mul_add_div hp, Nat.div_eq_of_lt hlt, Nat.add_zero, Nat.mul_add_mod,
        Nat.mod_eq_of_lt hlt, ih h.2]

theorem flatIndex_ok {sh idx : List Nat} (h : InBounds sh idx) : flatIndex sh idx = .ok (cOrder sh idx) := by
  induction sh generalizing idx with
  | nil => cases idx with
    | nil => rfl
    | cons _ _ => exact h.elim
  | cons d sh ih =>
    cases idx with
    | nil => exact h.elim
    | cons i is => rw [flatIndex, if_neg (not_le.2 h.1), ih h.2]; rfl

theorem flatIndex_err {sh idx : List Nat} (h : ¬InBounds sh idx) : flatIndex sh idx = .error .indexError := by
  induction sh generalizing idx with
  | nil => cases idx with
    | nil => exact absurd trivial h
    | cons _ _ => rfl
  | cons d sh ih =>
    cases idx with
    | nil => rfl
    | cons i is =>
      rw [flatIndex]
      by_cases hd : d ≤ i
      · rw [if_pos hd]
      · rw [if_neg hd, ih fun h' => h ⟨not_le.1 hd, h'⟩]; rfl

theorem item_ok {x : NDArray ℝ} (hx : x.WF) {idx : List Nat} (h : InBounds x.shape idx) :
    item x idx = .ok (x.data.getD (cOrder x.shape idx) 0) := by
  unfold item
  rw [flatIndex_ok h]
  have hlt : cOrder x.shape idx < x.data.length := hx ▸ cOrder_lt h
  simp [hlt]

theorem item_err {x : NDArray ℝ} {idx : List Nat} (h : ¬InBounds x.shape idx) : item x idx = .error .indexError := by
  unfold item
  rw [flatIndex_err h]
  rfl

/-- An index in the range of the array itself is not changed by broadcasting. -/
theorem bcMulti_self {sh idx : List Nat} (h : InBounds sh idx) : bcMulti sh idx = idx := by
  have hl : ∀ {sh idx : List Nat}, InBounds sh idx → idx.length = sh.length := by
    intro sh
    induction sh with
    | nil => intro idx h; cases idx with
      | nil => rfl
      | cons _ _ => exact h.elim
    | cons d sh ih => intro idx h; cases idx with
      | nil => exact h.elim
      | cons i is => simp [ih h.2]
  unfold bcMulti
  rw [hl h, Nat.sub_self, List.drop_zero]
  induction sh generalizing idx with
  | nil => cases idx with
    | nil => rfl
    | cons _ _ => exact h.elim
  | cons d sh ih => cases idx with
    | nil => exact h.elim
    | cons i is =>
      rw [List.zipWith_cons_cons, ih h.2]
      congr 1
      split_ifs with h1
      · have := h.1; omega
      · rfl

theorem bcEntry_self {a : NDArray ℝ} {idx : List Nat} (h : InBounds a.shape idx) :
    a.data.getD (cOrder a.shape idx) 0 = bcEntry a idx := by
  unfold bcEntry
  rw [bcMulti_self h]

/-- A list on which every element is mapped or rejected with the same exception. -/
theorem mapM_err {β γ : Type _} {f : β → Py γ} {l : List β} {e : PyErr} (h : ∀ x ∈ l, f x = .error e ∨ ∃ y, f x = .ok y)
    {x : β} (hx : x ∈ l) (hf : f x = .error e) : l.mapM f = .error e := by
  induction l with
  | nil => cases hx
  | cons a l ih =>
    rw [List.mapM_cons]
    rcases h a (by simp) with h1 | ⟨y, h1⟩
    · rw [h1]; rfl
    · rw [h1, py_bind_ok]
      rcases List.mem_cons.1 hx with rfl | hx
      · rw [hf] at h1; cases h1
      · rw [ih (fun x hx => h x (by simp [hx])) hx]; rfl

/-- The indices that the report goes through. -/
theorem mem_nonzeroNot {ok : NDArray Bool} (hok : ok.WF) (hne : ok.shape ≠ []) {idx : List Nat} :
    idx ∈ nonzeroNot ok ↔ InBounds ok.shape idx ∧ ok.data.getD (cOrder ok.shape idx) true = false := by
  unfold nonzeroNot
  simp only [if_neg hne, List.mem_map, List.mem_filter, List.mem_range, Bool.not_eq_true']
  rw [hok]
  constructor
  · rintro ⟨n, ⟨hn, h⟩, rfl⟩
    obtain ⟨h1, h2⟩ := unravel_ok _ n hn
    exact ⟨h1, h2.symm ▸ h⟩
  · rintro ⟨h1, h2⟩
    exact ⟨_, ⟨cOrder_lt h1, h2⟩, unravel_cOrder h1⟩

theorem nonzeroNot_sorted {ok : NDArray Bool} (hok : ok.WF) (hne : ok.shape ≠ []) :
    (nonzeroNot ok).Pairwise fun i j => cOrder ok.shape i < cOrder ok.shape j := by
  unfold nonzeroNot
  simp only [if_neg hne]
  rw [List.pairwise_map]
  refine List.Pairwise.imp_of_mem ?_ (List.pairwise_lt_range.filter _)
  intro i j hi hj hij
  have hi' := List.mem_range.1 (List.mem_filter.1 hi).1
  have hj' := List.mem_range.1 (List.mem_filter.1 hj).1
  rw [hok] at hi' hj'
  rw [(unravel_ok _ i hi').2, (unravel_ok _ j hj').2]
  exact hij

/-- The report on two arrays lists all entries that differ by too much, in the order of their indices and each once, with
the entries themselves and their difference; the comparison fails iff there is one. -/
theorem C95_report (a b : NDArray ℝ) (ha : a.WF) (hb : b.WF) (atol rtol : ℝ) (sh : List Nat)
    (h : BroadcastShape a.shape b.shape sh) (hne : sh ≠ [])
    (hin : ∀ idx, InBounds sh idx → Violated atol rtol a b idx → InBounds a.shape idx ∧ InBounds b.shape idx) :
    ∃ r attrs err vs, (ArrayDiff.mk (.ok a) (.ok b)).compare atol rtol = .ok (r, attrs) ∧
      report (some attrs) = .ok (.violations rtol atol a b err vs) ∧
      vs.Pairwise (fun v w => cOrder sh v.ind < cOrder sh w.ind) ∧
      (∀ v : Violation, v ∈ vs ↔ InBounds sh v.ind ∧ Violated atol rtol a b v.ind ∧ v.a = bcEntry a v.ind ∧
        v.b = bcEntry b v.ind ∧ v.err = v.a - v.b) ∧
      (r = true ↔ vs = []) := by
  obtain ⟨err, ok, h1, hse, hso, he, ho, hv⟩ := compare_arrays ha hb atol rtol h
  have hne' : ok.shape ≠ [] := hso ▸ hne
  have hmem : ∀ idx, idx ∈ nonzeroNot ok ↔ InBounds sh idx ∧ Violated atol rtol a b idx := fun idx => by
    rw [mem_nonzeroNot ho hne', hso]
    exact ⟨fun ⟨h1, h2⟩ => ⟨h1, (hv idx h1).2.1 h2⟩, fun ⟨h1, h2⟩ => ⟨h1, (hv idx h1).2.2 h2⟩⟩
  have hmap : (nonzeroNot ok).mapM (fun ind => do
      let ai ← item a ind
      let bi ← item b ind
      let ei ← item err ind
      return Violation.mk ind ai bi ei) = .ok ((nonzeroNot ok).map fun ind =>
        Violation.mk ind (bcEntry a ind) (bcEntry b ind) (bcEntry a ind - bcEntry b ind)) := by
    refine mapM_ok fun idx hi => ?_
    obtain ⟨h2, h3⟩ := (hmem idx).1 hi
    obtain ⟨h4, h5⟩ := hin idx h2 h3
    rw [item_ok ha h4, item_ok hb h5, item_ok he (hse ▸ h2), bcEntry_self h4, bcEntry_self h5, hse, (hv idx h2).1]
    rfl
  refine ⟨_, _, err, (nonzeroNot ok).map fun ind =>
    Violation.mk ind (bcEntry a ind) (bcEntry b ind) (bcEntry a ind - bcEntry b ind), h1, ?_, ?_, ?_, ?_⟩
  · rw [report, hmap]; rfl
  · rw [List.pairwise_map]
    have := nonzeroNot_sorted ho hne'
    rw [hso] at this
    exact this
  · intro v
    rw [List.mem_map]
    constructor
    · rintro ⟨idx, hi, rfl⟩
      exact ⟨((hmem idx).1 hi).1, ((hmem idx).1 hi).2, rfl, rfl, rfl⟩
    · rintro ⟨h2, h3, h4, h5, h6⟩
      refine ⟨v.ind, (hmem _).2 ⟨h2, h3⟩, ?_⟩
      cases v
      simp_all
  · rw [List.map_eq_nil_iff, List.all_eq_true]
    constructor
    · intro hall
      rw [List.eq_nil_iff_forall_not_mem]
      intro idx hi
      obtain ⟨h2, h3⟩ := (mem_nonzeroNot ho hne').1 hi
      have hlt : cOrder ok.shape idx < ok.data.length := ho ▸ cOrder_lt h2
      rw [getD_elem hlt] at h3
      have := hall _ (List.getElem_mem hlt)
      rw [h3] at this
      cases this
    · intro hnil x hx
      obtain ⟨n, hn, rfl⟩ := List.getElem_of_mem hx
      by_contra hc
      have hn' : n < ok.shape.prod := by rw [← ho]; exact hn
      obtain ⟨h2, h3⟩ := unravel_ok _ n hn'
      have : unravel ok.shape n ∈ nonzeroNot ok := (mem_nonzeroNot ho hne').2 ⟨h2, by
        rw [h3, getD_elem hn]; simpa using hc⟩
      rw [hnil] at this
      cases this

/-- For arrays of the same shape, with at least one axis, there is always such a report. -/
theorem C95_same_shape (a b : NDArray ℝ) (ha : a.WF) (hb : b.WF) (atol rtol : ℝ) (hs : a.shape = b.shape) (hne : a.shape ≠ []) :
    ∃ r attrs err vs, (ArrayDiff.mk (.ok a) (.ok b)).compare atol rtol = .ok (r, attrs) ∧
      report (some attrs) = .ok (.violations rtol atol a b err vs) ∧
      (∀ v : Violation, v ∈ vs ↔ InBounds a.shape v.ind ∧ v.a = a.data.getD (cOrder a.shape v.ind) 0 ∧
        v.b = b.data.getD (cOrder a.shape v.ind) 0 ∧ v.err = v.a - v.b ∧ atol + rtol * |v.b| ≤ |v.a - v.b|) := by
  have hbs : BroadcastShape a.shape b.shape a.shape := by
    refine ⟨by rw [← hs, max_self], fun k _ => ?_⟩
    rw [← hs]
    exact ⟨Or.inl rfl, by simp⟩
  obtain ⟨r, attrs, err, vs, h1, h2, -, h3, -⟩ := C95_report a b ha hb atol rtol a.shape hbs hne
    (fun idx hi _ => ⟨hi, hs ▸ hi⟩)
  refine ⟨r, attrs, err, vs, h1, h2, fun v => (h3 v).trans ⟨?_, ?_⟩⟩
  · rintro ⟨h4, h5, h6, h7, h8⟩
    have e1 := bcEntry_self (a := a) h4
    have e2 := bcEntry_self (a := b) (hs ▸ h4)
    rw [← hs] at e2
    exact ⟨h4, e1 ▸ h6, e2 ▸ h7, h8, by rw [h6, h7]; exact h5⟩
  · rintro ⟨h4, h6, h7, h8, h5⟩
    have e1 := bcEntry_self (a := a) h4
    have e2 := bcEntry_self (a := b) (hs ▸ h4)
    rw [← hs] at e2
    rw [e1] at h6
    rw [e2] at h7
    exact ⟨h4, by rw [h6, h7] at h5; exact h5, h6, h7, h8⟩

/-- Otherwise the report of a failed comparison raises IndexError: array_cmp.py:67-69 index the arrays as they were before
broadcasting. -/
theorem C95_broadcast (a b : NDArray ℝ) (ha : a.WF) (hb : b.WF) (atol rtol : ℝ) (sh : List Nat)
    (h : BroadcastShape a.shape b.shape sh) (hne : sh ≠ []) (idx : List Nat) (hi : InBounds sh idx)
    (hv : Violated atol rtol a b idx) (hin : ¬(InBounds a.shape idx ∧ InBounds b.shape idx)) :
    ∃ attrs, (ArrayDiff.mk (.ok a) (.ok b)).compare atol rtol = .ok (false, attrs) ∧
      report (some attrs) = .error .indexError := by
  obtain ⟨err, ok, h1, hse, hso, he, ho, hv'⟩ := compare_arrays ha hb atol rtol h
  have hne' : ok.shape ≠ [] := hso ▸ hne
  have hmem : idx ∈ nonzeroNot ok := (mem_nonzeroNot ho hne').2 ⟨hso ▸ hi, by rw [hso]; exact (hv' idx hi).2.2 hv⟩
  have hall : ok.data.all id = false := by
    rw [Bool.eq_false_iff]
    intro hall
    rw [List.all_eq_true] at hall
    obtain ⟨h2, h3⟩ := (mem_nonzeroNot ho hne').1 hmem
    have hlt : cOrder ok.shape idx < ok.data.length := ho ▸ cOrder_lt h2
    rw [getD_elem hlt] at h3
    have := hall _ (List.getElem_mem hlt)
    rw [h3] at this
    cases this
  have key : ∀ j, InBounds sh j → ¬(InBounds a.shape j ∧ InBounds b.shape j) → (do
      let ai ← item a j
      let bi ← item b j
      let ei ← item err j
      return Violation.mk j ai bi ei : Py Violation) = .error .indexError := by
    intro j _ hj
    by_cases h4 : InBounds a.shape j
    · rw [item_ok ha h4, item_err fun h5 => hj ⟨h4, h5⟩]; rfl
    · rw [item_err h4]; rfl
  refine ⟨_, by rw [h1, hall], ?_⟩
  rw [report, mapM_err (e := .indexError) _ hmem (key idx hi hin)]
  · rfl
  · intro j hj
    have hj' : InBounds sh j := hso ▸ ((mem_nonzeroNot ho hne').1 hj).1
    by_cases h4 : InBounds a.shape j ∧ InBounds b.shape j
    · refine Or.inr ?_
      rw [item_ok ha h4.1, item_ok hb h4.2, item_ok he (hse ▸ hj')]
      exact ⟨_, rfl⟩
    · exact Or.inl (key j hj' h4)

/-- Scalars have no report either: `np.nonzero` gives them an index. -/
theorem C95_scalars (x y atol rtol : ℝ) (h : atol + rtol * |y| ≤ |x - y|) :
    ∃ attrs, (ArrayDiff.mk (.ok ⟨[], [x]⟩) (.ok ⟨[], [y]⟩)).compare atol rtol = .ok (false, attrs) ∧
      report (some attrs) = .error .indexError := by
  obtain ⟨err, ok, h1, hse, hso, he, ho, hv⟩ := compare_arrays (a := ⟨[], [x]⟩) (b := ⟨[], [y]⟩) rfl rfl atol rtol
    (sh := []) ((bcShape2_iff _ _ _).1 rfl)
  have h2 := (hv [] trivial).2.2 h
  obtain ⟨osh, od⟩ := ok
  simp only at hso
  subst hso
  have hl : od.length = 1 := ho
  obtain ⟨o, rfl⟩ := List.length_eq_one_iff.1 hl
  have : o = false := h2
  subst this
  exact ⟨_, h1, rfl⟩

/-- Operands that are no arrays, or whose shapes do not fit, are reported as such; the explanation is given for failed `<`
between an `ArrayDiff` and anything, and for nothing else. -/
theorem C95_other (a b : NDArray ℝ) (x : Py (NDArray ℝ)) (atol rtol : ℝ) :
    (∃ attrs, (ArrayDiff.mk (.error .valueError) x).compare atol rtol = .ok (false, attrs) ∧
      report (some attrs) = .ok .aNotArray) ∧
    (∃ attrs, (ArrayDiff.mk (.ok a) (.error .valueError)).compare atol rtol = .ok (false, attrs) ∧
      report (some attrs) = .ok .bNotArray) ∧
    ((¬∃ sh, BroadcastShape a.shape b.shape sh) →
      ∃ attrs, (ArrayDiff.mk (.ok a) (.ok b)).compare atol rtol = .ok (false, attrs) ∧
        report (some attrs) = .ok (.notBroadcastable a.shape b.shape)) ∧
    report none = .error .attributeError ∧
    (∀ op left, op ≠ "<" → assertreprCompare op left = .ok none) ∧ (∀ op, assertreprCompare op .other = .ok none) ∧
    ∀ attrs r, report attrs = .ok r → assertreprCompare "<" (.arrayDiff attrs) = .ok (some r) := by
  refine ⟨⟨_, rfl, rfl⟩, ⟨_, rfl, rfl⟩, fun h => ⟨.notBroadcastable a b, ?_, rfl⟩, rfl, ?_, fun _ => rfl, ?_⟩
  · have : bcShape2 a.shape b.shape = none := by
      cases hs : bcShape2 a.shape b.shape with
      | none => rfl
      | some sh => exact absurd ⟨sh, (bcShape2_iff _ _ _).1 hs⟩ h
    simp [ArrayDiff.compare, broadcastable, this]
  · intro op left h
    cases left with
    | arrayDiff attrs => simp [assertreprCompare, h]
    | other => rfl
  · intro attrs r h
    simp [assertreprCompare, h]

/-- Shapes that do not fit. -/
example : ¬∃ sh, BroadcastShape [2] [3] sh := by
  rintro ⟨sh, h⟩
  cases (bcShape2_iff _ _ _).2 h

/-- `ArrayDiff([1, 2], [1, 4]) < 0.25` reports the entry 1. -/
example : ∃ r attrs err vs, (ArrayDiff.mk (.ok ⟨[2], [1, 2]⟩) (.ok ⟨[2], [1, 4]⟩)).compare (1 / 4) (1 / 4) = .ok (r, attrs) ∧
    report (some attrs) = .ok (.violations (1 / 4) (1 / 4) ⟨[2], [1, 2]⟩ ⟨[2], [1, 4]⟩ err vs) ∧
    (⟨[1], 2, 4, -2⟩ : Violation) ∈ vs ∧ ∀ v ∈ vs, v.ind = [1] := by
  obtain ⟨r, attrs, err, vs, h1, h2, h3⟩ := C95_same_shape ⟨[2], [1, 2]⟩ ⟨[2], [1, 4]⟩ rfl rfl (1 / 4) (1 / 4) rfl (by simp)
  refine ⟨r, attrs, err, vs, h1, h2, (h3 _).2 ?_, fun v hv => ?_⟩
  · refine ⟨by simp [InBounds], ?_, ?_, ?_, ?_⟩ <;> norm_num [cOrder, abs_of_neg]
  · obtain ⟨h4, h5, h6, h7, h8⟩ := (h3 v).1 hv
    obtain ⟨ind, va, vb, ve⟩ := v
    match ind, h4 with
    | [0], _ =>
      simp [cOrder] at h5 h6
      subst h5 h6
      norm_num at h8
    | [1], _ => rfl
    | [k + 2], h4 => exact absurd h4.1 (by omega)

/-- `ArrayDiff([1, 2], 5) < 0.25` raises IndexError when its failure is explained. -/
example : ∃ attrs, (ArrayDiff.mk (.ok ⟨[2], [1, 2]⟩) (.ok ⟨[], [5]⟩)).compare (1 / 4) (1 / 4) = .ok (false, attrs) ∧
    report (some attrs) = .error .indexError := by
  refine C95_broadcast ⟨[2], [1, 2]⟩ ⟨[], [5]⟩ rfl rfl _ _ [2] ((bcShape2_iff _ _ _).1 (by decide)) (by simp) [0] (by simp [InBounds]) ?_ (by simp [InBounds])
  norm_num [Violated, bcEntry, cOrder, bcMulti, abs_of_neg]

end Ceacoest.ArrayCmp
