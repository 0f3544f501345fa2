import Verif.Spec.SymInit
import Verif.Lemmas.SymOptim
import Verif.Lemmas.KalmanLoops

/-! # Lemmas for C71 -/

namespace Ceacoest
open Spec
variable {X : Type}

namespace SymModel

/-- What a step never takes away. -/
structure Grows (m m' : SymModel X) : Prop where
  objectives : m'.objectives = m.objectives
  constraints : m'.constraints = m.constraints
  generate : ∀ n ∈ m.generate, n ∈ m'.generate
  nnz : ∀ d, (∃ n, Dict.get? m.sparseNnz d = some n) → ∃ n, Dict.get? m'.sparseNnz d = some n
  ind : ∀ d, (∃ n, Dict.get? m.sparseNzind d = some n) → ∃ n, Dict.get? m'.sparseNzind d = some n
  funcs : ∀ d, (∃ n, Dict.get? m.funcs d = some n) → ∃ n, Dict.get? m'.funcs d = some n
  functions : (∀ n ∈ m.generate, ∃ f, Dict.get? m.funcs n = some f) → ∀ n ∈ m'.generate, ∃ f, Dict.get? m'.funcs n = some f

theorem Grows.refl (m : SymModel X) : Grows m m := ⟨rfl, rfl, fun _ h => h, fun _ h => h, fun _ h => h, fun _ h => h, fun h => h⟩

theorem Grows.trans {a b c : SymModel X} (h : Grows a b) (h' : Grows b c) : Grows a c :=
  ⟨h'.objectives.trans h.objectives, h'.constraints.trans h.constraints, fun n hn => h'.generate n (h.generate n hn),
    fun d hd => h'.nnz d (h.nnz d hd), fun d hd => h'.ind d (h.ind d hd), fun d hd => h'.funcs d (h.funcs d hd),
    fun hf => h'.functions (h.functions hf)⟩

theorem Sparse.grows {m m' : SymModel X} {d : String} (h : m.Sparse d) (g : Grows m m') : m'.Sparse d :=
  ⟨g.generate _ h.val, g.nnz _ h.nnz, g.ind _ h.ind⟩

theorem ObjectiveThere.grows {m m' : SymModel X} {n : String} {d : ObjDesc} (h : m.ObjectiveThere n d) (g : Grows m m') :
    m'.ObjectiveThere n d :=
  ⟨g.generate _ h.fn, fun wd hw => g.generate _ (h.grad wd hw), fun wd hw => (h.hess wd hw).grows g⟩

theorem ConstraintThere.grows {m m' : SymModel X} {n : String} {d : ConDesc} (h : m.ConstraintThere n d) (g : Grows m m') :
    m'.ConstraintThere n d :=
  ⟨g.generate _ h.fn, fun wd hw => (h.jac wd hw).grows g, fun wd hw => (h.hess wd hw).grows g⟩

theorem get?_set_some {κ α : Type} [DecidableEq κ] {d : Dict κ α} {k n : κ} {v : α} (h : ∃ a, Dict.get? d n = some a) :
    ∃ a, Dict.get? (Dict.set d k v) n = some a := by
  rw [Dict.get?_set]
  split
  · exact ⟨_, rfl⟩
  · exact h

theorem addSparse_grows {S : Sym2Num X} {m m' : SymModel X} {fname dname : String} {wrt : List String} {n : Nat}
    (h : m.addSparseDerivative S fname wrt dname = .ok (m', n)) : Grows m m' ∧ m'.Sparse dname := by
  unfold addSparseDerivative at h
  obtain ⟨f, -, h⟩ := py_bind_eq_ok h
  obtain ⟨ws, -, h⟩ := py_bind_eq_ok h
  dsimp only at h
  split at h
  · cases h
  · obtain ⟨rfl, -⟩ := Prod.mk.inj (Except.ok.inj h)
    refine ⟨⟨rfl, rfl, fun n hn => ?_, fun d hd => get?_set_some hd, fun d hd => get?_set_some hd,
      fun d hd => get?_set_some (get?_set_some hd), fun hf n hn => ?_⟩, ?_, ?_, ?_⟩
    · simp [hn]
    · simp only [if_true, List.mem_append, List.mem_singleton] at hn
      rcases hn with hn | rfl
      · exact get?_set_some (get?_set_some (hf n hn))
      · exact ⟨_, by rw [Dict.get?_set, if_pos rfl]⟩
    · simp
    · exact ⟨_, by rw [Dict.get?_set, if_pos rfl]⟩
    · exact ⟨_, by rw [Dict.get?_set, if_pos rfl]⟩

theorem foldlM_inv {σ α : Type} {f : σ → α → Py σ} {P : σ → Prop} (hf : ∀ s a s', P s → f s a = .ok s' → P s') :
    ∀ (l : List α) (s s' : σ), P s → l.foldlM f s = .ok s' → P s'
  | [], s, s', hp, h => by
    obtain rfl := Except.ok.inj h
    exact hp
  | a :: l, s, s', hp, h => by
    rw [List.foldlM_cons] at h
    obtain ⟨s1, h1, h2⟩ := py_bind_eq_ok h
    exact foldlM_inv hf l s1 s' (hf s a s1 hp h1) h2

theorem mem_set {κ α : Type} [DecidableEq κ] {d : Dict κ α} {k : κ} {v : α} {p : κ × α} (h : p ∈ Dict.set d k v) : p ∈ d ∨ p.2 = v := by
  induction d with
  | nil => simp only [Dict.set, List.mem_singleton] at h; exact Or.inr (by rw [h])
  | cons a d ih =>
    obtain ⟨ka, va⟩ := a
    simp only [Dict.set] at h
    split at h
    · rcases List.mem_cons.1 h with rfl | h
      · exact Or.inr rfl
      · exact Or.inl (List.mem_cons_of_mem _ h)
    · rcases List.mem_cons.1 h with rfl | h
      · exact Or.inl List.mem_cons_self
      · rcases ih h with h | h
        · exact Or.inl (List.mem_cons_of_mem _ h)
        · exact Or.inr h

theorem addHess_grows {S : Sym2Num X} {m m' : SymModel X} {fname : String} {order : List String} {hess : Dict (List String) String}
    (h : m.addHess S fname order = .ok (m', hess)) : Grows m m' ∧ ∀ wd ∈ hess, m'.Sparse wd.2 := by
  refine foldlM_inv (P := fun s : SymModel X × Dict (List String) String => Grows m s.1 ∧ ∀ wd ∈ s.2, s.1.Sparse wd.2) ?_ (pairs order)
    (m, []) (m', hess) ⟨Grows.refl m, fun wd h => absurd h (by simp)⟩ h
  rintro ⟨s, d⟩ ab ⟨s', d'⟩ ⟨hg, hd⟩ he
  obtain ⟨dn, -, he⟩ := py_bind_eq_ok he
  obtain ⟨⟨s1, n⟩, h1, he⟩ := py_bind_eq_ok he
  obtain ⟨rfl, rfl⟩ := Prod.mk.inj (Except.ok.inj he)
  obtain ⟨g1, g2⟩ := addSparse_grows h1
  refine ⟨hg.trans g1, fun wd hw => ?_⟩
  dsimp only at hw hd ⊢
  split at hw
  · rcases mem_set hw with hw | hw
    · exact (hd wd hw).grows g1
    · rw [hw]; exact g2
  · exact (hd wd hw).grows g1

theorem addJac_grows {S : Sym2Num X} {m m' : SymModel X} {fname : String} {order : List String} {jac : Dict (List String) String}
    (h : m.addJac S fname order = .ok (m', jac)) : Grows m m' ∧ ∀ wd ∈ jac, m'.Sparse wd.2 := by
  refine foldlM_inv (P := fun s : SymModel X × Dict (List String) String => Grows m s.1 ∧ ∀ wd ∈ s.2, s.1.Sparse wd.2) ?_ order
    (m, []) (m', jac) ⟨Grows.refl m, fun wd h => absurd h (by simp)⟩ h
  rintro ⟨s, d⟩ ab ⟨s', d'⟩ ⟨hg, hd⟩ he
  obtain ⟨⟨s1, n⟩, h1, he⟩ := py_bind_eq_ok he
  obtain ⟨rfl, rfl⟩ := Prod.mk.inj (Except.ok.inj he)
  obtain ⟨g1, g2⟩ := addSparse_grows h1
  refine ⟨hg.trans g1, fun wd hw => ?_⟩
  dsimp only at hw hd ⊢
  split at hw
  · rcases mem_set hw with hw | hw
    · exact (hd wd hw).grows g1
    · rw [hw]; exact g2
  · exact (hd wd hw).grows g1

theorem addGrad_grows {S : Sym2Num X} {m m' : SymModel X} {fname : String} {order : List String} {grad : Dict String String}
    (h : m.addGrad S fname order = .ok (m', grad)) : Grows m m' ∧ ∀ wd ∈ grad, wd.2 ∈ m'.generate := by
  refine foldlM_inv (P := fun s : SymModel X × Dict String String => Grows m s.1 ∧ ∀ wd ∈ s.2, wd.2 ∈ s.1.generate) ?_ order
    (m, []) (m', grad) ⟨Grows.refl m, fun wd h => absurd h (by simp)⟩ h
  rintro ⟨s, d⟩ a ⟨s', d'⟩ ⟨hg, hd⟩ he
  obtain ⟨f, -, he⟩ := py_bind_eq_ok he
  obtain ⟨rfl, rfl⟩ := Prod.mk.inj (Except.ok.inj he)
  have g1 : Grows s { s with funcs := Dict.set s.funcs (firstDerivName fname a) (S.deriv f [a]),
                             generate := s.generate ++ [firstDerivName fname a] } := by
    refine ⟨rfl, rfl, fun n hn => by simp [hn], fun _ h => h, fun _ h => h, fun d hd => get?_set_some hd, fun hf n hn => ?_⟩
    simp only [List.mem_append, List.mem_singleton] at hn
    rcases hn with hn | rfl
    · exact get?_set_some (hf n hn)
    · exact ⟨_, by rw [Dict.get?_set, if_pos rfl]⟩
  refine ⟨hg.trans g1, fun wd hw => ?_⟩
  dsimp only at hw hd ⊢
  rcases mem_set hw with hw | hw
  · simp [hd wd hw]
  · simp [hw]

theorem set_set {κ α : Type} [DecidableEq κ] (d : Dict κ α) (k : κ) (v w : α) : Dict.set (Dict.set d k v) k w = Dict.set d k w := by
  induction d with
  | nil => simp [Dict.set]
  | cons a d ih =>
    obtain ⟨ka, va⟩ := a
    by_cases h : ka = k <;> simp [Dict.set, h, ih]

/-- Storing the description of an objective. -/
theorem Closed.store_objective {m m' : SymModel X} {n : String} {d d0 : ObjDesc} (h : Closed m) (hf : ∃ f, Dict.get? m.funcs n = some f)
    (g : Grows { m with objectives := Dict.set m.objectives n d0, generate := m.generate ++ [n] } m') (ho : ∀ wd ∈ d.grad, wd.2 ∈ m'.generate)
    (hh : ∀ wd ∈ d.hess, m'.Sparse wd.2) : Closed { m' with objectives := Dict.set m'.objectives n d } := by
  have g0 : ∀ k ∈ m.generate, k ∈ m'.generate := fun k hk => g.generate k (by simp [hk])
  have gs : ∀ dn, m.Sparse dn → m'.Sparse dn := fun dn hs => ⟨g0 _ hs.val, g.nnz _ hs.nnz, g.ind _ hs.ind⟩
  refine ⟨fun k dk hk => ?_, fun k dk hk => ?_, ?_⟩
  · dsimp only at hk
    rw [Dict.get?_set] at hk
    split at hk
    · next e =>
      subst e
      obtain rfl := Option.some.inj hk
      exact ⟨g.generate _ (by simp), ho, fun wd hw => ⟨(hh wd hw).val, (hh wd hw).nnz, (hh wd hw).ind⟩⟩
    · next e =>
      rw [g.objectives, Dict.get?_set, if_neg e] at hk
      have := h.objectives k dk hk
      exact ⟨g0 _ this.fn, fun wd hw => g0 _ (this.grad wd hw), fun wd hw =>
        ⟨(gs _ (this.hess wd hw)).val, (gs _ (this.hess wd hw)).nnz, (gs _ (this.hess wd hw)).ind⟩⟩
  · dsimp only at hk
    rw [g.constraints] at hk
    have := h.constraints k dk hk
    exact ⟨g0 _ this.fn, fun wd hw => ⟨(gs _ (this.jac wd hw)).val, (gs _ (this.jac wd hw)).nnz, (gs _ (this.jac wd hw)).ind⟩,
      fun wd hw => ⟨(gs _ (this.hess wd hw)).val, (gs _ (this.hess wd hw)).nnz, (gs _ (this.hess wd hw)).ind⟩⟩
  · refine g.functions fun k hk => ?_
    simp only [List.mem_append, List.mem_singleton] at hk
    rcases hk with hk | rfl
    · exact h.functions k hk
    · exact hf

/-- Storing the description of a constraint. -/
theorem Closed.store_constraint {m m' : SymModel X} {n : String} {d d0 : ConDesc} (h : Closed m) (hf : ∃ f, Dict.get? m.funcs n = some f)
    (g : Grows { m with constraints := Dict.set m.constraints n d0, generate := m.generate ++ [n] } m') (ho : ∀ wd ∈ d.jac, m'.Sparse wd.2)
    (hh : ∀ wd ∈ d.hess, m'.Sparse wd.2) : Closed { m' with constraints := Dict.set m'.constraints n d } := by
  have g0 : ∀ k ∈ m.generate, k ∈ m'.generate := fun k hk => g.generate k (by simp [hk])
  have gs : ∀ dn, m.Sparse dn → m'.Sparse dn := fun dn hs => ⟨g0 _ hs.val, g.nnz _ hs.nnz, g.ind _ hs.ind⟩
  refine ⟨fun k dk hk => ?_, fun k dk hk => ?_, ?_⟩
  · dsimp only at hk
    rw [g.objectives] at hk
    have := h.objectives k dk hk
    exact ⟨g0 _ this.fn, fun wd hw => g0 _ (this.grad wd hw), fun wd hw =>
        ⟨(gs _ (this.hess wd hw)).val, (gs _ (this.hess wd hw)).nnz, (gs _ (this.hess wd hw)).ind⟩⟩
  · dsimp only at hk
    rw [Dict.get?_set] at hk
    split at hk
    · next e =>
      subst e
      obtain rfl := Option.some.inj hk
      exact ⟨g.generate _ (by simp), fun wd hw => ⟨(ho wd hw).val, (ho wd hw).nnz, (ho wd hw).ind⟩,
        fun wd hw => ⟨(hh wd hw).val, (hh wd hw).nnz, (hh wd hw).ind⟩⟩
    · next e =>
      rw [g.constraints, Dict.get?_set, if_neg e] at hk
      have := h.constraints k dk hk
      exact ⟨g0 _ this.fn, fun wd hw => ⟨(gs _ (this.jac wd hw)).val, (gs _ (this.jac wd hw)).nnz, (gs _ (this.jac wd hw)).ind⟩,
        fun wd hw => ⟨(gs _ (this.hess wd hw)).val, (gs _ (this.hess wd hw)).nnz, (gs _ (this.hess wd hw)).ind⟩⟩
  · refine g.functions fun k hk => ?_
    simp only [List.mem_append, List.mem_singleton] at hk
    rcases hk with hk | rfl
    · exact h.functions k hk
    · exact hf

theorem addObjective_closed (S : Sym2Num X) {m m' : SymModel X} {fname : String} {order : List String} {k : Nat} (h : m.Closed)
    (hf : ∃ f, Dict.get? m.funcs fname = some f) (he : m.addObjective S fname order k = .ok m') :
    m'.Closed ∧ ∀ d, (∃ n, Dict.get? m.funcs d = some n) → ∃ n, Dict.get? m'.funcs d = some n := by
  unfold addObjective at he
  dsimp only at he
  by_cases hk : k = 0
  · rw [if_pos hk] at he
    obtain rfl := Except.ok.inj he
    have := h.store_objective (d := ⟨[], []⟩) (d0 := ⟨[], []⟩) hf (Grows.refl _) (by simp) (by simp)
    rw [set_set] at this
    exact ⟨this, fun _ h => h⟩
  · rw [if_neg hk] at he
    obtain ⟨⟨m1, grad⟩, h1, he⟩ := py_bind_eq_ok he
    obtain ⟨g1, g2⟩ := addGrad_grows h1
    dsimp only at he
    split at he
    · obtain ⟨⟨m2, hess⟩, h2, he⟩ := py_bind_eq_ok he
      obtain rfl := Except.ok.inj he
      obtain ⟨g3, g4⟩ := addHess_grows h2
      exact ⟨h.store_objective hf (g1.trans g3) (fun wd hw => g3.generate _ (g2 wd hw)) g4, (g1.trans g3).funcs⟩
    · obtain rfl := Except.ok.inj he
      exact ⟨h.store_objective hf g1 g2 (by simp), g1.funcs⟩

theorem addConstraint_closed (S : Sym2Num X) {m m' : SymModel X} {fname : String} {order : List String} {k : Nat} (h : m.Closed)
    (he : m.addConstraint S fname order k = .ok m') :
    m'.Closed ∧ ∀ d, (∃ n, Dict.get? m.funcs d = some n) → ∃ n, Dict.get? m'.funcs d = some n := by
  unfold addConstraint at he
  obtain ⟨f, hf, he⟩ := py_bind_eq_ok he
  have hf' : ∃ f, Dict.get? m.funcs fname = some f := by
    unfold getFn at hf
    cases hg : Dict.get? m.funcs fname with
    | none => rw [hg] at hf; cases hf
    | some f => exact ⟨f, rfl⟩
  dsimp only at he
  by_cases hk : k = 0
  · rw [if_pos hk] at he
    obtain rfl := Except.ok.inj he
    have := h.store_constraint (d := ⟨f.outShape, [], []⟩) (d0 := ⟨f.outShape, [], []⟩) hf' (Grows.refl _) (by simp) (by simp)
    rw [set_set] at this
    exact ⟨this, fun _ h => h⟩
  · rw [if_neg hk] at he
    obtain ⟨⟨m1, jac⟩, h1, he⟩ := py_bind_eq_ok he
    obtain ⟨g1, g2⟩ := addJac_grows h1
    dsimp only at he
    split at he
    · obtain ⟨⟨m2, hess⟩, h2, he⟩ := py_bind_eq_ok he
      obtain rfl := Except.ok.inj he
      obtain ⟨g3, g4⟩ := addHess_grows h2
      exact ⟨h.store_constraint hf' (g1.trans g3) (fun wd hw => (g2 wd hw).grows g3) g4, (g1.trans g3).funcs⟩
    · obtain rfl := Except.ok.inj he
      exact ⟨h.store_constraint hf' g1 g2 (by simp), g1.funcs⟩

theorem add_closed (S : Sym2Num X) {m m' : SymModel X} {c : SymCall} (h : m.Closed)
    (hf : c.objective = true → ∃ f, Dict.get? m.funcs c.fname = some f) (he : m.add S c = .ok m') :
    m'.Closed ∧ ∀ d, (∃ n, Dict.get? m.funcs d = some n) → ∃ n, Dict.get? m'.funcs d = some n := by
  unfold add at he
  split at he
  · next hc => exact addObjective_closed S h (hf hc) he
  · exact addConstraint_closed S h he

theorem addAll_closed (S : Sym2Num X) {calls : List SymCall} : ∀ {m m' : SymModel X}, m.Closed →
    (∀ c ∈ calls, c.objective = true → ∃ f, Dict.get? m.funcs c.fname = some f) → m.addAll S calls = .ok m' → m'.Closed := by
  induction calls with
  | nil =>
    intro m m' h _ he
    obtain rfl := Except.ok.inj he
    exact h
  | cons c calls ih =>
    intro m m' h hf he
    unfold addAll at he
    rw [List.foldlM_cons] at he
    obtain ⟨m1, h1, he⟩ := py_bind_eq_ok he
    obtain ⟨g1, g2⟩ := add_closed S h (hf c (by simp)) h1
    exact ih g1 (fun c' hc' ho => g2 _ (hf c' (by simp [hc']) ho)) he

/-- A model without objectives and constraints. -/
theorem closed_start {shapes : Dict String (List Nat)} {decision : List String} {funcs : Dict String (SymFn X)} {f : SymFn X}
    (hf : Dict.get? funcs "f" = some f) : Closed (⟨shapes, decision, funcs, [], [], [], [], ["f"]⟩ : SymModel X) :=
  ⟨fun _ _ h => (by cases h), fun _ _ h => (by cases h), fun n hn => ⟨f, by rw [List.mem_singleton.1 hn]; exact hf⟩⟩

/-- What the generated class needs for a sparse derivative. -/
theorem Closed.sparseAttrs {m : SymModel X} (h : m.Closed) {α : Type} (codegen : SymFn X → List (NDArray α) → NDArray α) {d : String}
    (hd : m.Sparse d) : ∃ s, m.sparseAttrs codegen d = .ok s := by
  obtain ⟨n, hn⟩ := hd.nnz
  obtain ⟨i, hi⟩ := hd.ind
  obtain ⟨f, hf⟩ := h.functions _ hd.val
  unfold SymModel.sparseAttrs SymModel.getFn
  simp only [hn, hi, hf]
  exact ⟨_, rfl⟩

end SymModel

theorem mapM_exists {α β : Type} {f : α → Py β} : ∀ {l : List α}, (∀ a ∈ l, ∃ b, f a = .ok b) → ∃ r, l.mapM f = .ok r
  | [], _ => ⟨[], rfl⟩
  | a :: l, h => by
    obtain ⟨b, hb⟩ := h a (by simp)
    obtain ⟨r, hr⟩ := mapM_exists (l := l) fun a ha => h a (by simp [ha])
    exact ⟨b :: r, by rw [List.mapM_cons, hb, py_bind_ok, hr]; rfl⟩

end Ceacoest
