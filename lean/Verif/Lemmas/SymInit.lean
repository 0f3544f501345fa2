import Verif.Lemmas.Transcription

/-! # The constructors of the symbolic model classes -/

namespace Ceacoest
open Spec RK
variable {X : Type}

theorem Dict.keys_set {κ α : Type _} [DecidableEq κ] (d : Dict κ α) (k : κ) (v : α) :
    Dict.keys (Dict.set d k v) = if k ∈ Dict.keys d then Dict.keys d else Dict.keys d ++ [k] := by
  induction d with
  | nil => simp [Dict.set, Dict.keys]
  | cons a d ih =>
    obtain ⟨ka, va⟩ := a
    by_cases h : ka = k
    · subst h; simp [Dict.set, Dict.keys]
    · simp only [Dict.set, if_neg h, Dict.keys, List.map_cons, List.mem_cons] at ih ⊢
      rw [ih]
      have hk : k ≠ ka := Ne.symm h
      by_cases hm : k ∈ List.map (fun x => x.1) d <;> simp [hm, hk]

theorem Dict.nodup_set {κ α : Type _} [DecidableEq κ] {d : Dict κ α} (h : (Dict.keys d).Nodup) (k : κ) (v : α) :
    (Dict.keys (Dict.set d k v)).Nodup := by
  rw [Dict.keys_set]
  split
  · exact h
  · next hk => simp [List.nodup_append, h]; rintro a ha rfl; exact hk ha

theorem Dict.get?_setDefault {κ α : Type _} [DecidableEq κ] (d : Dict κ α) (k : κ) (v : α) (n : κ) :
    Dict.get? (Dict.setDefault d k v) n = if k = n then some ((Dict.get? d k).getD v) else Dict.get? d n := by
  unfold Dict.setDefault
  cases h : Dict.get? d k with
  | none => simp [Dict.get?_set]
  | some w =>
    by_cases hk : k = n
    · subst hk; simp [h]
    · simp [hk]

theorem Dict.nodup_setDefault {κ α : Type _} [DecidableEq κ] {d : Dict κ α} (h : (Dict.keys d).Nodup) (k : κ) (v : α) :
    (Dict.keys (Dict.setDefault d k v)).Nodup := by
  unfold Dict.setDefault
  split
  · exact h
  · exact Dict.nodup_set h k v

theorem Spec.OptVec.getD {vars : Dict String SymVar} {n : String} {l : List String} (h : OptVec vars n l) :
    (Dict.get? vars n).getD (.vec []) = .vec l := by
  rcases h with h | ⟨h, rfl⟩ <;> rw [h] <;> rfl

theorem vec_elems (l : List String) : (SymVar.vec l).elems = .ok l := rfl

/-- The variables of a collocation model. -/
def colVar (vars : Dict String SymVar) (ncol : Nat) (xn un pn : List String) (n : String) : Option SymVar :=
  if n = "up" then some (.piece un ncol) else if n = "xp" then some (.piece xn ncol) else if n = "u" then some (.vec un) else
  if n = "p" then some (.vec pn) else if n = "piece_len" then some ((Dict.get? vars "piece_len").getD (.scalar "piece_len")) else
  Dict.get? vars n

theorem symcolVars_ok {vars : Dict String SymVar} {xn un pn : List String} (h : ColVars vars xn un pn) (ncol : Nat) :
    ∃ v, symcolVars ncol vars = .ok v ∧ ∀ n, Dict.get? v n = colVar vars ncol xn un pn n := by
  have e0 : Dict.update [] vars = vars := Dict.update_nil_of_nodup h.keys
  unfold symcolVars
  rw [e0]
  set v1 := Dict.setDefault vars "piece_len" (.scalar "piece_len") with h1
  set v2 := Dict.setDefault v1 "p" (.vec []) with h2
  set v3 := Dict.setDefault v2 "u" (.vec []) with h3
  have hu : Dict.get? v3 "u" = some (.vec un) := by
    simp only [h3, h2, h1, Dict.get?_setDefault]
    simp [h.u.getD]
  have hx : Dict.get? v3 "x" = some (.vec xn) := by
    simp only [h3, h2, h1, Dict.get?_setDefault]
    simp [h.x]
  refine ⟨Dict.set (Dict.set v3 "xp" (.piece xn ncol)) "up" (.piece un ncol), ?_, fun n => ?_⟩
  · have g : Dict.getItem v3 "u" = .ok (.vec un) := by rw [Dict.getItem, hu]
    simp only [← h1, ← h2, ← h3, g, hx, py_bind_ok, py_pure, vec_elems]
  · simp only [Dict.get?_set, h3, h2, h1, Dict.get?_setDefault, colVar]
    by_cases a1 : n = "up"
    · subst a1; simp
    by_cases a2 : n = "xp"
    · subst a2; simp
    by_cases a3 : n = "u"
    · subst a3; simp [h.u.getD]
    by_cases a4 : n = "p"
    · subst a4; simp [h.p.getD]
    by_cases a5 : n = "piece_len"
    · subst a5; simp
    simp [a1, a2, a3, a4, a5, Ne.symm a1, Ne.symm a2, Ne.symm a3, Ne.symm a4, Ne.symm a5]

/-- The symbolic side of a model object. -/
def SymClass.side (A : SymArith X) (ev : X → Env → ℝ) (c : SymClass X) (s : SymFn X → Sym) : SymSide X :=
  ⟨A.s2n (shapeOf c.vars), ev, shapeOf c.vars, c.model.decision, fun n => (Dict.get? c.model.funcs n).getD ⟨[], [], []⟩, s⟩

/-- What the calls of a constructor lead to. -/
theorem class_generated {A : SymArith X} {ev : X → Env → ℝ} (hA : ArithOK A ev) (v : Dict String SymVar) (m0 : SymModel X)
    (hsh : m0.shapes = varShapes v) (hreg : ∀ a ∈ m0.decision, (Dict.get? v a).isSome) (fn : String → SymFn X) (calls : List SymCall)
    (hnd : (calls.map SymCall.fname).Nodup)
    (hc : ∀ c ∈ calls, DerivId.Plain.PlainFn c.fname ∧ (∀ a ∈ c.order, DerivId.Plain.PlainVar a) ∧
      Dict.get? m0.funcs c.fname = some (fn c.fname) ∧ m0.IsWrt (fn c.fname) c.order ∧
      (fn c.fname).out.length = (fn c.fname).outShape.prod ∧ (c.objective = true → (fn c.fname).outShape = [])) :
    ∃ m, m0.addAll (A.s2n (shapeOf v)) calls = .ok m ∧ m.decision = m0.decision ∧ m.shapes = m0.shapes ∧
      (∀ c ∈ calls, Dict.get? m.funcs c.fname = some (fn c.fname)) ∧
      ∃ s : SymFn X → Sym, ∀ codegen : SymFn X → List (NDArray ℝ) → NDArray ℝ,
        (∀ name g, Dict.get? m.funcs name = some g → CodegenOK ev (shapeOf v) codegen g) →
        ∀ c ∈ calls, ∃ g, m.gen codegen c = .ok g ∧ g.name = c.fname ∧
          Meets (A.s2n (shapeOf v)) ev (shapeOf v) m0.decision (fn c.fname) c.objective g (s (fn c.fname)) := by
  have hS : SymOK (A.s2n (shapeOf v)) ev (shapeOf v) m0 fn calls := by
    refine ⟨fun a ha => ?_, hnd, fun c h => ⟨(hc c h).1, (hc c h).2.1⟩, fun c h => (hc c h).2.2.1, fun c h => (hc c h).2.2.2.1,
      fun c h => hA.form _ _ _ (hc c h).2.2.2.2.1, fun c h => (hc c h).2.2.2.2.2⟩
    rw [hsh, varShapes, Dict.get?_map, shapeOf]
    obtain ⟨w, hw⟩ := Option.isSome_iff_exists.1 (hreg a ha)
    rw [hw]; rfl
  obtain ⟨m, h1, h2, h3, s, h4⟩ := C66_generated _ _ _ _ _ _ hS
  obtain ⟨m', e1, -, -, -, e5⟩ := addAll_ok _ _ _ _ hS.callsOK
  obtain rfl : m = m' := Except.ok.inj (h1.symm.trans e1)
  exact ⟨m, h1, h3, h2, fun c hcc => (e5 c hcc).fn, s, h4⟩

end Ceacoest
