import Verif.Props.SymInit
import Verif.Lemmas.SymbolNames

/-! # C69: the symbols of a model -/

namespace Ceacoest
open Spec RK SymModel
variable {X : Type}

/-- **C69.** No two derived symbols coincide: `n_piece_k` determines `n` and `k`, and likewise for the end states, the noise coefficients
and the penalty weights; symbols of different kinds differ. -/
theorem C69_render {σ τ : Derived} (h : σ.render = τ.render) : σ = τ := Derived.render_inj h

/-- Which variable a derived symbol belongs to. -/
def Derived.owner (xn : List String) : Derived → String
  | .piece s _ => if s ∈ xn then "xp" else "up"
  | .initial _ => "xe"
  | .final _ => "xe"
  | .noise _ _ => "wc"
  | .weight _ => "penweight"

theorem nodup_map_render {l : List Derived} (h : l.Nodup) : (l.map Derived.render).Nodup := h.map fun _ _ => Derived.render_inj

theorem piece_list_nodup {l : List String} (h : l.Nodup) (n : Nat) :
    ((List.range n).flatMap fun k => l.map fun s => Derived.piece s k).Nodup := by
  rw [List.nodup_flatMap]
  refine ⟨fun k _ => h.map fun a b e => by cases e; rfl, List.nodup_range.imp fun {a b} hab => ?_⟩
  intro σ h1 h2
  simp only [List.mem_map] at h1 h2
  obtain ⟨s, -, rfl⟩ := h1
  obtain ⟨s', -, e⟩ := h2
  cases e
  exact hab rfl

theorem derived_list {N nw : Nat} {xn un : List String} (hx : xn.Nodup) (hu : un.Nodup) (hd : xn.Disjoint un) {n : String} {a : SymVar}
    (h : derivedVars N nw xn un n = some a) :
    ∃ l : List Derived, l.Nodup ∧ a.names = l.map Derived.render ∧ ∀ σ ∈ l, σ.owner xn = n := by
  unfold derivedVars at h
  split_ifs at h with h1 h2 h3 h4 h5
  · subst h1
    obtain rfl := Option.some.inj h
    refine ⟨_, piece_list_nodup hx (N + 1), ?_, fun σ hσ => ?_⟩
    · simp only [pieceSymbols, List.map_flatMap, List.map_map]; rfl
    · simp only [List.mem_flatMap, List.mem_map] at hσ
      obtain ⟨k, -, s, hs, rfl⟩ := hσ
      simp [Derived.owner, hs]
  · subst h2
    obtain rfl := Option.some.inj h
    refine ⟨_, piece_list_nodup hu (N + 1), ?_, fun σ hσ => ?_⟩
    · simp only [pieceSymbols, List.map_flatMap, List.map_map]; rfl
    · simp only [List.mem_flatMap, List.mem_map] at hσ
      obtain ⟨k, -, s, hs, rfl⟩ := hσ
      have : s ∉ xn := fun h => hd h hs
      simp [Derived.owner, this]
  · subst h3
    obtain rfl := Option.some.inj h
    refine ⟨xn.map Derived.initial ++ xn.map Derived.final, ?_, ?_, fun σ hσ => ?_⟩
    · rw [List.nodup_append]
      refine ⟨hx.map fun a b e => by cases e; rfl, hx.map fun a b e => by cases e; rfl, ?_⟩
      intro σ h1 τ h2 e
      simp only [List.mem_map] at h1 h2
      obtain ⟨s, -, rfl⟩ := h1
      obtain ⟨s', -, rfl⟩ := h2
      cases e
    · simp only [List.map_append, List.map_map]; rfl
    · simp only [List.mem_append, List.mem_map] at hσ
      rcases hσ with ⟨s, -, rfl⟩ | ⟨s, -, rfl⟩ <;> rfl
  · subst h4
    obtain rfl := Option.some.inj h
    refine ⟨(List.range N).flatMap fun i => (List.range nw).map fun j => .noise j i, ?_, ?_, fun σ hσ => ?_⟩
    · rw [List.nodup_flatMap]
      refine ⟨fun k _ => List.nodup_range.map fun a b e => by cases e; rfl, List.nodup_range.imp fun {a b} hab => ?_⟩
      intro σ h1 h2
      simp only [List.mem_map] at h1 h2
      obtain ⟨s, -, rfl⟩ := h1
      obtain ⟨s', -, e⟩ := h2
      cases e
      exact hab rfl
    · simp only [List.map_flatMap, List.map_map]; rfl
    · simp only [List.mem_flatMap, List.mem_map] at hσ
      obtain ⟨i, -, j, -, rfl⟩ := hσ
      rfl
  · subst h5
    obtain rfl := Option.some.inj h
    refine ⟨(List.range xn.length).map .weight, List.nodup_range.map fun a b e => by cases e; rfl, ?_, fun σ hσ => ?_⟩
    · simp only [List.map_map]; rfl
    · simp only [List.mem_map] at hσ
      obtain ⟨i, -, rfl⟩ := hσ
      rfl

/-- **C69.** If the states and inputs have different symbols, then so have all derived variables. -/
theorem C69_derived (N nw : Nat) {xn un : List String} (hx : xn.Nodup) (hu : un.Nodup) (hd : xn.Disjoint un) :
    DistinctSymbols (derivedVars N nw xn un) := by
  refine ⟨fun n a h => ?_, fun n n' a a' hn h h' s hs hs' => hn ?_⟩
  · obtain ⟨l, h1, h2, -⟩ := derived_list hx hu hd h
    rw [h2]
    exact nodup_map_render h1
  · obtain ⟨l, -, h2, h3⟩ := derived_list hx hu hd h
    obtain ⟨l', -, h2', h3'⟩ := derived_list hx hu hd h'
    rw [h2, List.mem_map] at hs
    rw [h2', List.mem_map] at hs'
    obtain ⟨σ, hσ, rfl⟩ := hs
    obtain ⟨τ, hτ, e⟩ := hs'
    obtain rfl := Derived.render_inj e
    rw [← h3 _ hσ, ← h3' _ hτ]

theorem derived_none {N nw : Nat} {xn un : List String} {n : String} : derivedVars N nw xn un n = none ↔ n ∉ ["xp", "up", "xe", "wc", "penweight"] := by
  unfold derivedVars
  split_ifs with h1 h2 h3 h4 h5 <;> simp [*]

/-- The symbols of a model are different if and only if the user gives different symbols and none that is also a derived one. -/
theorem distinct_iff {v vars : Dict String SymVar} {N nw : Nat} {xn un : List String} {over : List String}
    (hover : ∀ n ∈ over, n ∈ ["xp", "up", "xe", "wc", "penweight"])
    (hx : Dict.get? vars "x" = some (.vec xn)) (hu : Dict.get? v "u" = some (.vec un))
    (hv : ∀ n, Dict.get? v n = if n ∈ over then derivedVars N nw xn un n else userVars vars over n) :
    DistinctSymbols (Dict.get? v) ↔ DistinctSymbols (userVars vars over) ∧
      ∀ n a, userVars vars over n = some a → ∀ n' ∈ over, ∀ a', derivedVars N nw xn un n' = some a' → a.names.Disjoint a'.names := by
  have hu' : ∀ n a, userVars vars over n = some a → n ∉ over ∧ Dict.get? v n = some a := fun n a h => by
    by_cases ho : n ∈ over
    · simp [userVars, ho] at h
    · exact ⟨ho, by rw [hv, if_neg ho, h]⟩
  have hd' : ∀ n ∈ over, ∀ a, derivedVars N nw xn un n = some a → Dict.get? v n = some a := fun n ho a h => by rw [hv, if_pos ho, h]
  constructor
  · rintro ⟨h1, h2⟩
    refine ⟨⟨fun n a h => h1 n a (hu' n a h).2, fun n n' a a' hn h h' => h2 n n' a a' hn (hu' n a h).2 (hu' n' a' h').2⟩, ?_⟩
    intro n a h n' hn' a' h'
    exact h2 n n' a a' (fun e => (hu' n a h).1 (e ▸ hn')) (hu' n a h).2 (hd' n' hn' a' h')
  · rintro ⟨⟨h1, h2⟩, h3⟩
    have hxo : "x" ∉ over := fun h => by have := hover _ h; simp at this
    have huo : "u" ∉ over := fun h => by have := hover _ h; simp at this
    have hxu : userVars vars over "x" = some (.vec xn) := by simp [userVars, hxo, hx]
    have huu : userVars vars over "u" = some (.vec un) := by rw [← hu, hv, if_neg huo]
    have hD := C69_derived N nw (h1 _ _ hxu) (h1 _ _ huu) (h2 _ _ _ _ (by decide) hxu huu)
    refine ⟨fun n a h => ?_, fun n n' a a' hn h h' => ?_⟩
    · rw [hv] at h
      split_ifs at h
      · exact hD.1 n a h
      · exact h1 n a h
    · rw [hv] at h h'
      split_ifs at h h' with ho ho' ho'
      · exact hD.2 n n' a a' hn h h'
      · exact (h3 n' a' h' n ho a h).symm
      · exact h3 n a h n' ho' a' h'
      · exact h2 n n' a a' hn h h'

/-- Symbols with none of the marks of the derived ones are not derived ones. -/
theorem C69_unreserved {s : String} (h : Unreserved s) (σ : Derived) : s ≠ σ.render := by
  rintro rfl
  obtain ⟨h1, h2, h3, h4, h5⟩ := h
  match σ with
  | .piece s k =>
    refine h1 ⟨s.toList, (toString k).toList, ?_⟩
    rw [Derived.render, String.toList_append, String.toList_append]; simp
  | .initial s =>
    refine h2 ⟨s.toList, ?_⟩
    rw [Derived.render, String.toList_append]; simp
  | .final s =>
    refine h3 ⟨s.toList, ?_⟩
    rw [Derived.render, String.toList_append]; simp
  | .noise j i =>
    refine h4 ⟨['w', 'c'] ++ (toString j).toList, (toString i).toList, ?_⟩
    rw [Derived.render, String.toList_append, String.toList_append, String.toList_append]; simp
  | .weight i =>
    refine h5 ⟨(toString i).toList, ?_⟩
    rw [Derived.render, String.toList_append]; simp

theorem derived_is_render {N nw : Nat} {xn un : List String} {n : String} {a : SymVar} (h : derivedVars N nw xn un n = some a) :
    ∀ s ∈ a.names, ∃ σ : Derived, s = σ.render := by
  unfold derivedVars at h
  intro s hs
  split_ifs at h <;> obtain rfl := Option.some.inj h <;> simp only [pieceSymbols, List.mem_flatMap, List.mem_map, List.mem_append] at hs
  · obtain ⟨k, -, t, -, rfl⟩ := hs; exact ⟨.piece t k, rfl⟩
  · obtain ⟨k, -, t, -, rfl⟩ := hs; exact ⟨.piece t k, rfl⟩
  · rcases hs with ⟨t, -, rfl⟩ | ⟨t, -, rfl⟩
    · exact ⟨.initial t, rfl⟩
    · exact ⟨.final t, rfl⟩
  · obtain ⟨i, -, j, -, rfl⟩ := hs; exact ⟨.noise j i, rfl⟩
  · obtain ⟨i, -, rfl⟩ := hs; exact ⟨.weight i, rfl⟩

/-- The condition in `distinct_iff`, for symbols without the marks. -/
theorem disjoint_of_unreserved {vars : Dict String SymVar} {N nw : Nat} {xn un : List String} {over : List String}
    (h : ∀ n a, userVars vars over n = some a → ∀ s ∈ a.names, Unreserved s) :
    ∀ n a, userVars vars over n = some a → ∀ n' ∈ over, ∀ a', derivedVars N nw xn un n' = some a' → a.names.Disjoint a'.names := by
  intro n a hn n' _ a' hn' s hs hs'
  obtain ⟨σ, e⟩ := derived_is_render hn' s hs'
  exact C69_unreserved (h n a hn s hs) σ e

/-- **C69** for the variables of a collocation model. -/
theorem col_vars {v vars : Dict String SymVar} {N : Nat} {xn un pn : List String} (hc : ColVars vars xn un pn) (h : ColRegistered v vars N xn un pn)
    {over : List String} (ho : ∀ n ∈ over, n ∈ ["xe", "wc", "penweight"])
    {nw : Nat} (hr : ∀ n, n ∉ ["x", "u", "p", "xp", "up", "piece_len"] → Dict.get? v n =
      if n ∈ over then derivedVars N nw xn un n else Dict.get? vars n) :
    ∀ n, Dict.get? v n = if n ∈ "xp" :: "up" :: over then derivedVars N nw xn un n else userVars vars ("xp" :: "up" :: over) n := by
  intro n
  by_cases hn : n ∈ ["x", "u", "p", "xp", "up", "piece_len"]
  · have hno : n ∉ over := fun h' => by
      have := ho n h'
      simp only [List.mem_cons, List.not_mem_nil, or_false] at this
      rcases this with rfl | rfl | rfl <;> simp at hn
    simp only [List.mem_cons, List.not_mem_nil, or_false] at hn
    rcases hn with rfl | rfl | rfl | rfl | rfl | rfl
    · rw [h.x]; simp [userVars, hno, hc.x]; rfl
    · rw [h.u]
      rcases hc.u with e | ⟨e, rfl⟩ <;> simp [userVars, hno, e] <;> rfl
    · rw [h.p]
      rcases hc.p with e | ⟨e, rfl⟩ <;> simp [userVars, hno, e] <;> rfl
    · rw [h.xp]; simp [derivedVars]
    · rw [h.up]; simp [derivedVars]
    · rw [h.pieceLen]
      cases e : Dict.get? vars "piece_len" <;> simp [userVars, hno, e]
  · rw [hr n hn]
    simp only [List.mem_cons, List.not_mem_nil, or_false, not_or] at hn
    by_cases hno : n ∈ over
    · simp [hno]
    · simp [hno, userVars, hn]

/-- **C69.** All symbols of an optimal control model are different if and only if those of the user are, the names of the pieces, of the end
states, and `piece_len` included. -/
theorem C69_oc {A : SymArith X} {ev : X → Env → ℝ} (hA : ArithOK A ev) (U : OCUser X) (F : OCFunctions) {xn un pn : List String} {ng nh N : Nat}
    (hU : OCDenotes ev U F xn.length un.length pn.length ng nh) (hN : (N : Int) + 1 = U.order) (hN1 : 1 ≤ N) {vars : Dict String SymVar}
    (hv : ColVars vars xn un pn) {decision : List String}
    (hd : DecisionOK vars ["x", "u", "p", "xp", "up", "xe"] ["piece_len"] decision) {iter : String → List String} (hi : OrdersOK iter ocWrt)
    {c : SymClass X} (h : symocInit A U iter vars decision = .ok c) :
    (DistinctSymbols (Dict.get? c.vars) ↔ DistinctSymbols (userVars vars ["xp", "up", "xe"]) ∧
      ∀ n a, userVars vars ["xp", "up", "xe"] n = some a → ∀ n' ∈ ["xp", "up", "xe"], ∀ a', derivedVars N 0 xn un n' = some a' →
        a.names.Disjoint a'.names) ∧
    (DistinctSymbols (userVars vars ["xp", "up", "xe"]) → (∀ n a, userVars vars ["xp", "up", "xe"] n = some a → ∀ s ∈ a.names, Unreserved s) →
      DistinctSymbols (Dict.get? c.vars)) := by
  obtain ⟨c', h', h1, h2, h3, -⟩ := C68_oc hA U F hU hN hN1 hv hd hi
  obtain rfl := Except.ok.inj (h.symm.trans h')
  have := distinct_iff (over := ["xp", "up", "xe"]) (nw := 0) (by decide) hv.x h1.u (col_vars hv h1 (over := ["xe"]) (by decide) fun n hn => by
    by_cases he : n = "xe"
    · subst he
      rw [h2]; simp [derivedVars]
    · rw [h3 n (by simp only [List.mem_cons, List.not_mem_nil, or_false, not_or] at hn ⊢; simp [hn, he])]
      simp [he])
  exact ⟨this, fun a b => this.2 ⟨a, disjoint_of_unreserved b⟩⟩

/-- **C69** for output error models. -/
theorem C69_oem {A : SymArith X} {ev : X → Env → ℝ} (hA : ArithOK A ev) (U : OEMUser X) (F : OEMFunctions) {xn un pn yn : List String} {N : Nat}
    (hU : OEMDenotes ev U F xn.length un.length pn.length yn.length) (hN : (N : Int) + 1 = U.order) (hN1 : 1 ≤ N) {vars : Dict String SymVar}
    (hv : ColVars vars xn un pn) (hy : Dict.get? vars "y" = some (.vec yn)) {decision : List String}
    (hd : DecisionOK vars ["x", "p", "xp"] ["y", "u", "up", "piece_len"] decision) {iter : String → List String} (hi : OrdersOK iter oemWrt)
    {c : SymClass X} (h : symoemInit A U.order (oemMethods A U) iter vars decision = .ok c) :
    (DistinctSymbols (Dict.get? c.vars) ↔ DistinctSymbols (userVars vars ["xp", "up"]) ∧
      ∀ n a, userVars vars ["xp", "up"] n = some a → ∀ n' ∈ ["xp", "up"], ∀ a', derivedVars N 0 xn un n' = some a' →
        a.names.Disjoint a'.names) ∧
    (DistinctSymbols (userVars vars ["xp", "up"]) → (∀ n a, userVars vars ["xp", "up"] n = some a → ∀ s ∈ a.names, Unreserved s) →
      DistinctSymbols (Dict.get? c.vars)) := by
  obtain ⟨c', h', h1, h3, -⟩ := C68_oem hA U F hU hN hN1 hv hy hd hi
  obtain rfl := Except.ok.inj (h.symm.trans h')
  have := distinct_iff (over := ["xp", "up"]) (nw := 0) (by decide) hv.x h1.u (col_vars hv h1 (over := []) (by decide) fun n hn => by
    rw [h3 n hn]; simp)
  exact ⟨this, fun a b => this.2 ⟨a, disjoint_of_unreserved b⟩⟩

/-- **C69** for joint MAP models. -/
theorem C69_jme {A : SymArith X} {ev : X → Env → ℝ} (hA : ArithOK A ev) (U : JMEUser X) (F : JMEFunctions) {xn un pn yn : List String} {N nw : Nat}
    (hU : JMEDenotes A ev U F xn.length un.length pn.length yn.length) (hN : (N : Int) + 1 = U.order) (hN1 : 1 ≤ N)
    (hjt : U.jtRange.length = N + 1 ∧ ∀ r ∈ U.jtRange, r.length = N) {vars : Dict String SymVar}
    (hv : ColVars vars xn un pn) (hy : Dict.get? vars "y" = some (.vec yn)) {Gv : SymVar} (hGv : Dict.get? vars "G" = some Gv)
    (hGs : Gv.shape = [xn.length, nw]) {decision : List String}
    (hd : DecisionOK vars ["x", "p", "xp", "wc"] ["y", "u", "up", "piece_len", "G", "penweight"] decision)
    {iter : String → List String} (hi : OrdersOK iter jmeWrt) (over : List String)
    (hover : over = if U.usePenalty then ["xp", "up", "wc", "penweight"] else ["xp", "up", "wc"])
    {c : SymClass X} (h : symjmeInit A U iter vars decision = .ok c) :
    (DistinctSymbols (Dict.get? c.vars) ↔ DistinctSymbols (userVars vars over) ∧
      ∀ n a, userVars vars over n = some a → ∀ n' ∈ over, ∀ a', derivedVars N nw xn un n' = some a' → a.names.Disjoint a'.names) ∧
    (DistinctSymbols (userVars vars over) → (∀ n a, userVars vars over n = some a → ∀ s ∈ a.names, Unreserved s) →
      DistinctSymbols (Dict.get? c.vars)) := by
  obtain ⟨c', h', h1, h2, h4, h3, -⟩ := C68_jme hA U F hU hN hN1 hjt hv hy hGv hGs hd hi
  obtain rfl := Except.ok.inj (h.symm.trans h')
  have : ∀ n, Dict.get? c.vars n = if n ∈ over then derivedVars N nw xn un n else userVars vars over n := by
    cases hp : U.usePenalty with
    | true =>
      rw [hp, if_pos rfl] at hover
      subst hover
      refine col_vars hv h1 (over := ["wc", "penweight"]) (by decide) fun n hn => ?_
      by_cases hw : n = "wc"
      · subst hw; rw [h2]; simp [derivedVars]
      · by_cases hq : n = "penweight"
        · subst hq; rw [h4 hp]; simp [derivedVars]
        · rw [h3 n (by simp only [List.mem_cons, List.not_mem_nil, or_false, not_or] at hn ⊢; simp [hn, hw]) (fun h => (hq h).elim)]
          simp [hw, hq]
    | false =>
      rw [hp] at hover
      simp only [Bool.false_eq_true, if_false] at hover
      subst hover
      refine col_vars hv h1 (over := ["wc"]) (by decide) fun n hn => ?_
      by_cases hw : n = "wc"
      · subst hw; rw [h2]; simp [derivedVars]
      · rw [h3 n (by simp only [List.mem_cons, List.not_mem_nil, or_false, not_or] at hn ⊢; simp [hn, hw]) (fun _ => hp)]
        simp [hw]
  have := distinct_iff (over := over) (nw := nw) (by subst hover; split <;> decide) hv.x h1.u this
  exact ⟨this, fun a b => this.2 ⟨a, disjoint_of_unreserved b⟩⟩

/-! ### Examples -/

namespace PendulumId

theorem vars_distinct (over : List String) (ho : ∀ n ∈ over, n ∈ ["xp", "up", "xe", "wc", "penweight"]) :
    DistinctSymbols (userVars vars over) ∧ ∀ n a, userVars vars over n = some a → ∀ s ∈ a.names, Unreserved s := by
  have key : ∀ n a, userVars vars over n = some a → (n = "x" ∧ a = .vec ["angle", "speed"]) ∨ (n = "u" ∧ a = .vec ["torque"]) ∨
      (n = "p" ∧ a = .vec ["friction", "precision"]) ∨ (n = "y" ∧ a = .vec ["angle_meas"]) ∨ (n = "piece_len" ∧ a = .scalar "piece_len") := by
    intro n a h
    unfold userVars at h
    split_ifs at h with h1 h2 h3 h4
    all_goals simp only [vars, Dict.get?_cons] at h
    · rcases h2 with rfl | rfl <;> simp_all
    · subst h3; simp_all [SymVar.scalar, Dict.get?]
    · split_ifs at h with e1 e2 e3 e4
      all_goals simp_all [Dict.get?]
  have hU : ∀ n a, userVars vars over n = some a → ∀ s ∈ a.names, Unreserved s := by
    intro n a h
    unfold Unreserved
    rcases key n a h with ⟨-, rfl⟩ | ⟨-, rfl⟩ | ⟨-, rfl⟩ | ⟨-, rfl⟩ | ⟨-, rfl⟩ <;> decide
  refine ⟨⟨fun n a h => ?_, fun n n' a a' hn h h' => ?_⟩, hU⟩
  · rcases key n a h with ⟨-, rfl⟩ | ⟨-, rfl⟩ | ⟨-, rfl⟩ | ⟨-, rfl⟩ | ⟨-, rfl⟩ <;> decide
  · rcases key n a h with ⟨rfl, rfl⟩ | ⟨rfl, rfl⟩ | ⟨rfl, rfl⟩ | ⟨rfl, rfl⟩ | ⟨rfl, rfl⟩ <;>
      rcases key n' a' h' with ⟨rfl, rfl⟩ | ⟨rfl, rfl⟩ | ⟨rfl, rfl⟩ | ⟨rfl, rfl⟩ | ⟨rfl, rfl⟩ <;>
      first | exact absurd rfl hn | (intro s h1 h2; revert s; decide)

/-- The pendulum: all symbols are different. -/
example : ∃ c, symoemInit SExpr.arith user.order (oemMethods SExpr.arith user) iter vars [] = .ok c ∧ DistinctSymbols (Dict.get? c.vars) := by
  obtain ⟨c, h, -⟩ := C68_oem arith_ok user functions (xn := ["angle", "speed"]) (un := ["torque"]) (pn := ["friction", "precision"])
    (yn := ["angle_meas"]) (N := 2) denotes rfl (by decide) vars_ok rfl (decision := []) (by unfold DecisionOK; decide) iter_ok
  have := vars_distinct ["xp", "up"] (by decide)
  exact ⟨c, h, (C69_oem arith_ok user functions (xn := ["angle", "speed"]) (un := ["torque"]) (pn := ["friction", "precision"])
    (yn := ["angle_meas"]) (N := 2) denotes rfl (by decide) vars_ok rfl (decision := []) (by unfold DecisionOK; decide) iter_ok h).2 this.1 this.2⟩

/-- The second parameter has the name of the angle at the start of a piece. -/
def badVars : Dict String SymVar := [("x", .vec ["angle", "speed"]), ("u", .vec ["torque"]), ("p", .vec ["friction", "angle_piece_0"]),
  ("y", .vec ["angle_meas"])]

theorem badVars_ok : ColVars badVars ["angle", "speed"] ["torque"] ["friction", "angle_piece_0"] where
  keys := by decide
  x := rfl
  u := Or.inl rfl
  p := Or.inl rfl
  pieceLen := fun v h => by cases h

/-- **C69.** The constructor does not notice that a symbol of the user is also a derived one. -/
theorem C69_collision : ∃ c, symoemInit SExpr.arith user.order (oemMethods SExpr.arith user) iter badVars [] = .ok c ∧
    "angle_piece_0" ∈ ((Dict.get? c.vars "p").getD (.vec [])).names ∧ "angle_piece_0" ∈ ((Dict.get? c.vars "xp").getD (.vec [])).names ∧
    ¬ DistinctSymbols (Dict.get? c.vars) := by
  obtain ⟨c, h, h1, -⟩ := C68_oem arith_ok user functions (xn := ["angle", "speed"]) (un := ["torque"]) (pn := ["friction", "angle_piece_0"])
    (yn := ["angle_meas"]) (N := 2) denotes rfl (by decide) badVars_ok rfl (decision := []) (by unfold DecisionOK; decide) iter_ok
  have h2 : "angle_piece_0" ∈ (pieceSymbols ["angle", "speed"] (2 + 1)).names := by decide
  refine ⟨c, h, by rw [h1.p]; decide, by rw [h1.xp]; exact h2, fun hd => ?_⟩
  exact hd.2 "p" "xp" _ _ (by decide) h1.p h1.xp (by decide : "angle_piece_0" ∈ ["friction", "angle_piece_0"]) h2

end PendulumId
end Ceacoest
