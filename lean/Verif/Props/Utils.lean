import Verif.Model.Utils
import Verif.Lemmas.Dict
import Verif.Lemmas.Layout
import Verif.Lemmas.Piece

/-! # C58 – C60: `extract_subkeys`, `flat_cat`, `cached` -/

namespace Ceacoest.Utils
open Spec
variable {α : Type}

/-! ## C58 -/

theorem matchAtoms_lit (base key rest : List Char) (hb : '.' ∉ base) :
    matchAtoms (parseBase base) key = some rest ↔ key = base ++ rest := by
  induction base generalizing key with
  | nil => simp [parseBase, matchAtoms]
  | cons c base ih =>
    simp only [List.mem_cons, not_or] at hb
    have hc : ¬ c = '.' := fun h => hb.1 h.symm
    have hp : parseBase (c :: base) = .lit c :: parseBase base := by simp [parseBase, hc]
    rw [hp]
    cases key with
    | nil => simp [matchAtoms]
    | cons d key =>
      simp only [matchAtoms, List.cons_append, List.cons.injEq]
      split
      · next h => rw [ih key hb.2]; simp [h]
      · next h => simp [Ne.symm h]

theorem takeWhile_all {p : Char → Bool} {l : List Char} (h : l.all p = true) : l.takeWhile p = l := by
  induction l with
  | nil => rfl
  | cons c l ih =>
    simp only [List.all_cons, Bool.and_eq_true] at h
    rw [List.takeWhile_cons, if_pos h.1, ih h.2]

/-- The entry that one item contributes. -/
def subItem (base : List Char) (kv : List Char × α) : Option (List Char × α) :=
  if kv.1.take base.length = base ∧ kv.1.drop base.length ≠ [] then some (kv.1.drop base.length, kv.2) else none

theorem extract_eq (word : Char → Bool) (d : Dict (List Char) α) (base : List Char) (hb : '.' ∉ base)
    (hw : ∀ kv ∈ d, kv.1.all word = true) :
    extractSubkeys word d base = Dict.update [] (d.filterMap (subItem base)) := by
  unfold extractSubkeys Dict.update
  generalize ([] : Dict (List Char) α) = acc
  induction d generalizing acc with
  | nil => rfl
  | cons kv d ih =>
    have hw0 := hw kv (by simp)
    rw [List.foldl_cons, ih (fun x hx => hw x (by simp [hx]))]
    by_cases hm : kv.1.take base.length = base
    · have hk : kv.1 = base ++ kv.1.drop base.length := by
        conv_lhs => rw [← List.take_append_drop base.length kv.1, hm]
      have h1 := (matchAtoms_lit base kv.1 (kv.1.drop base.length) hb).2 hk
      rw [h1]
      have h2 : (kv.1.drop base.length).all word = true := by
        rw [List.all_eq_true] at hw0 ⊢
        exact fun x hx => hw0 x (List.mem_of_mem_drop hx)
      simp only
      rw [takeWhile_all h2]
      by_cases he : kv.1.drop base.length = []
      · rw [if_pos he, List.filterMap_cons_none (by simp [subItem, he])]
      · rw [if_neg he, List.filterMap_cons_some (b := (kv.1.drop base.length, kv.2)) (by simp only [subItem]; rw [if_pos ⟨hm, he⟩]),
          List.foldl_cons]
    · have h1 : matchAtoms (parseBase base) kv.1 = none := by
        cases h : matchAtoms (parseBase base) kv.1 with
        | none => rfl
        | some r =>
          rw [matchAtoms_lit base kv.1 r hb] at h
          exact absurd (by rw [h]; simp) hm
      rw [h1, List.filterMap_cons_none (by simp [subItem, hm])]

/-- `extract_subkeys(d, base)` has exactly one entry per key of `d` that strictly extends `base`, under the rest of that
key and with the same value, for every dict with word-character keys and every literal prefix. -/
theorem C58_extract_subkeys (word : Char → Bool) (d : Dict (List Char) α) (base : List Char) (hb : '.' ∉ base)
    (hw : ∀ kv ∈ d, kv.1.all word = true) (hd : (d.map Prod.fst).Nodup) :
    ((extractSubkeys word d base).map Prod.fst).Nodup ∧
    ∀ s v, (s, v) ∈ extractSubkeys word d base ↔ s ≠ [] ∧ (base ++ s, v) ∈ d := by
  have hmem : ∀ s v, (s, v) ∈ d.filterMap (subItem base) ↔ s ≠ [] ∧ (base ++ s, v) ∈ d := by
    intro s v
    rw [List.mem_filterMap]
    constructor
    · rintro ⟨⟨k, w⟩, hk, h⟩
      simp only [subItem] at h
      split at h
      · next hc =>
        simp only [Option.some.injEq, Prod.mk.injEq] at h
        obtain ⟨rfl, rfl⟩ := h
        refine ⟨hc.2, ?_⟩
        rwa [show base ++ k.drop base.length = k by conv_rhs => rw [← List.take_append_drop base.length k, hc.1]]
      · cases h
    · rintro ⟨hs, h⟩
      exact ⟨_, h, by simp [subItem, hs]⟩
  have hnd : ((d.filterMap (subItem base)).map Prod.fst).Nodup := by
    have hd' : d.Pairwise fun a b => a.1 ≠ b.1 := List.pairwise_map.1 hd
    rw [List.Nodup, List.pairwise_map, List.pairwise_filterMap]
    refine hd'.imp fun {a b} hab x hx y hy heq => hab ?_
    simp only [subItem] at hx hy
    split at hx
    · next ha =>
      split at hy
      · next hb' =>
        cases hx
        cases hy
        rw [← List.take_append_drop base.length a.1, ← List.take_append_drop base.length b.1, ha.1, hb'.1]
        exact congrArg _ heq
      · cases hy
    · cases hx
  rw [extract_eq word d base hb hw, Dict.update_nil_of_nodup hnd]
  exact ⟨hnd, hmem⟩

/-- The hypotheses are needed: `.` in the prefix is a metacharacter, so another key leaks in; and a key with a character
outside `\w` is cut there, so that two entries collide and one is lost. -/
theorem C58_counterexamples :
    extractSubkeys Char.isAlphanum [("abX".toList, 1)] "a.".toList = [("X".toList, 1)] ∧
    extractSubkeys Char.isAlphanum [("ab-c".toList, 1), ("ab-d".toList, 2)] "a".toList = [("b".toList, 2)] := by
  decide

example : extractSubkeys Char.isAlphanum [("xxxyyy".toList, 1), ("xyz".toList, 2), ("xxx".toList, 3), ("xxxz".toList, 4)]
    "xxx".toList = [("yyy".toList, 1), ("z".toList, 4)] := by decide

/-! ## C59 -/

/-- Position of a multi-index in Fortran order: the first index runs fastest. -/
def fOrder : List Nat → List Nat → Nat
  | n :: sh, i :: is => i + n * fOrder sh is
  | _, _ => 0

theorem fPos_length (sh : List Nat) : (fPos sh).length = sh.prod := by
  induction sh with
  | nil => rfl
  | cons n sh ih => simp [fPos, ih, Nat.mul_comm]

theorem fPos_lt (sh : List Nat) : ∀ p ∈ fPos sh, p < sh.prod := by
  induction sh with
  | nil => simp [fPos]
  | cons n sh ih =>
    intro p hp
    simp only [fPos, List.mem_flatMap, List.mem_map, List.mem_range] at hp
    obtain ⟨q, hq, i, hi, rfl⟩ := hp
    rw [List.prod_cons]
    exact mul_add_lt hi (ih q hq)

theorem getElem?_flatMap_const {β γ : Type} (l : List β) (n : Nat) (f : β → Nat → γ) (j i : Nat) (hi : i < n) :
    (l.flatMap fun b => (List.range n).map (f b))[i + n * j]? = l[j]?.map fun b => f b i := by
  induction l generalizing j with
  | nil => simp
  | cons b l ih =>
    rw [List.flatMap_cons]
    cases j with
    | zero =>
      rw [List.getElem?_append_left (by simpa using hi)]
      simp [hi]
    | succ j =>
      rw [List.getElem?_append_right (by simp [Nat.mul_succ]; omega)]
      simp only [List.length_map, List.length_range, List.getElem?_cons_succ]
      rw [← ih j]
      congr 1
      rw [Nat.mul_succ]
      omega

theorem fPos_getElem (sh idx : List Nat) (h : InBounds sh idx) : (fPos sh)[fOrder sh idx]? = some (cOrder sh idx) := by
  induction sh generalizing idx with
  | nil => cases idx <;> simp_all [InBounds, fPos, fOrder, cOrder]
  | cons n sh ih =>
    cases idx with
    | nil => exact absurd h (by simp [InBounds])
    | cons i is =>
      rw [fPos, fOrder, getElem?_flatMap_const _ _ _ _ _ h.1, ih is h.2]
      rfl

theorem fOrder_lt {sh idx : List Nat} (h : InBounds sh idx) : fOrder sh idx < sh.prod := by
  have := fPos_getElem sh idx h
  rw [← fPos_length]
  by_contra hc
  rw [List.getElem?_eq_none (by omega)] at this
  cases this

theorem ravel_ok (o : Order) (a : NDArray α) (ha : a.WF) :
    ∃ r, ravel o a = .ok r ∧ r.length = a.shape.prod ∧
      ∀ idx, InBounds a.shape idx → r[(match o with | .C => cOrder a.shape idx | .F => fOrder a.shape idx)]? =
        a.data[cOrder a.shape idx]? := by
  cases o with
  | C => exact ⟨_, rfl, ha, fun _ _ => rfl⟩
  | F =>
    have hm : ∃ r, (fPos a.shape).mapM (fun p => match a.data[p]? with
        | some v => (Except.ok v : Py α)
        | none => .error .indexError) = .ok r ∧ r.length = (fPos a.shape).length ∧
        ∀ j (hj : j < (fPos a.shape).length), r[j]? = a.data[(fPos a.shape)[j]]? := by
      have hl : ∀ p ∈ fPos a.shape, p < a.data.length := fun p hp => by rw [ha]; exact fPos_lt _ p hp
      generalize fPos a.shape = l at hl ⊢
      induction l with
      | nil => exact ⟨[], rfl, rfl, fun j hj => absurd hj (by simp)⟩
      | cons p l ih =>
        obtain ⟨r, h1, h2, h3⟩ := ih fun q hq => hl q (by simp [hq])
        have hp := hl p (by simp)
        refine ⟨a.data[p] :: r, ?_, by simp [h2], fun j hj => ?_⟩
        · rw [List.mapM_cons, h1]
          simp only [List.getElem?_eq_getElem hp]
          rfl
        · cases j with
          | zero => simp [hp]
          | succ j => simpa using h3 j (by simpa using hj)
    obtain ⟨r, h1, h2, h3⟩ := hm
    refine ⟨r, h1, by rw [h2, fPos_length], fun idx hidx => ?_⟩
    have h4 := fPos_getElem _ _ hidx
    have hlt : fOrder a.shape idx < (fPos a.shape).length := by rw [fPos_length]; exact fOrder_lt hidx
    rw [List.getElem?_eq_getElem hlt] at h4
    simp only
    rw [h3 _ hlt]
    congr 1
    exact Option.some.inj h4

/-- `flat_cat(*args, order=o)` is one-dimensional, has the total size of the arguments, and holds entry `idx` of argument
`k` at the block start (total size of the arguments before it) plus the C-order (Fortran-order) position of `idx`. -/
theorem C59_flat_cat (o : Order) (args : List (NDArray α)) (hne : args ≠ []) (hw : ∀ a ∈ args, a.WF) :
    ∃ r, flatCat o args = .ok r ∧ r.shape = [(args.map fun a => a.shape.prod).sum] ∧ r.WF ∧
      ∀ k a, args[k]? = some a → ∀ idx, InBounds a.shape idx →
        r.data[((args.take k).map fun a => a.shape.prod).sum +
          (match o with | .C => cOrder a.shape idx | .F => fOrder a.shape idx)]? = a.data[cOrder a.shape idx]? := by
  have key : ∃ rs, args.mapM (ravel o) = .ok rs ∧ rs.map List.length = args.map (fun a => a.shape.prod) ∧
      ∀ k a, args[k]? = some a → ∀ idx, InBounds a.shape idx →
        rs.flatten[((args.take k).map fun a => a.shape.prod).sum +
          (match o with | .C => cOrder a.shape idx | .F => fOrder a.shape idx)]? = a.data[cOrder a.shape idx]? := by
    clear hne
    induction args with
    | nil => exact ⟨[], rfl, rfl, fun k a h => absurd h (by simp)⟩
    | cons b args ih =>
      obtain ⟨rs, h1, h2, h3⟩ := ih fun a ha => hw a (by simp [ha])
      obtain ⟨r, g1, g2, g3⟩ := ravel_ok o b (hw b (by simp))
      refine ⟨r :: rs, by rw [List.mapM_cons, g1, h1]; rfl, by simp [g2, h2], fun k a ha idx hidx => ?_⟩
      rw [List.flatten_cons]
      cases k with
      | zero =>
        simp only [List.getElem?_cons_zero, Option.some.injEq] at ha
        subst ha
        rw [← g3 idx hidx]
        simp only [List.take_zero, List.map_nil, List.sum_nil, Nat.zero_add]
        refine List.getElem?_append_left ?_
        rw [g2]
        cases o with
        | C => exact cOrder_lt hidx
        | F => exact fOrder_lt hidx
      | succ k =>
        rw [← h3 k a (by simpa using ha) idx hidx, List.take_succ_cons, List.map_cons, List.sum_cons, Nat.add_assoc,
          List.getElem?_append_right (by rw [g2]; omega), g2]
        congr 1
        omega
  obtain ⟨rs, h1, h2, h3⟩ := key
  have hrs : rs ≠ [] := by
    rintro rfl
    have := congrArg List.length h2
    simp only [List.map_nil, List.length_nil, List.length_map] at this
    exact hne (List.length_eq_zero_iff.1 this.symm)
  have hlen : rs.flatten.length = (args.map fun a => a.shape.prod).sum := by rw [List.length_flatten, h2]
  refine ⟨⟨[rs.flatten.length], rs.flatten⟩, ?_, by rw [hlen], by simp [NDArray.WF], h3⟩
  unfold flatCat
  rw [h1]
  simp only [py_bind_ok]
  split
  · next h => exact absurd h hrs
  · rfl

/-- No arguments: `np.concatenate` raises. -/
theorem C59_flat_cat_empty (o : Order) : flatCat o ([] : List (NDArray α)) = .error .valueError := rfl

example : flatCat .C [⟨[1, 3], [1, 2, 3]⟩, ⟨[2], [4, 5]⟩, ⟨[], [6]⟩] = .ok ⟨[6], [1, 2, 3, 4, 5, 6]⟩ := by decide
example : flatCat .F [⟨[2, 3], [1, 2, 3, 4, 5, 6]⟩, ⟨[2], [7, 8]⟩] = .ok ⟨[8], [1, 4, 2, 5, 3, 6, 7, 8]⟩ := by decide

/-! ## C60 -/

/-- A program: calls of the cached methods `fname` of object `self`, in order.  `bodies` gives the method bodies by name.
The result lists, per call, whether the body ran to completion, and the outcome. -/
def runCached {V W : Type} (bodies : String → Nat → W → Py V × W) :
    List (Nat × String) → World V W → List (Bool × Py V) × World V W
  | [], w => ([], w)
  | (self, fname) :: cs, w =>
    let ran := match w.attrs self ("_" ++ fname), (bodies fname self w.rest).1 with
      | none, .ok _ => true
      | _, _ => false
    let r := cached fname (bodies fname) self w
    let rs := runCached bodies cs r.2
    ((ran, r.1) :: rs.1, rs.2)

theorem underscore_inj {a b : String} (h : "_" ++ a = "_" ++ b) : a = b := by
  have := congrArg String.toList h
  simp only [String.toList_append] at this
  exact String.toList_inj.1 (List.append_cancel_left this)

theorem cached_attrs {V W : Type} (fname : String) (body : Nat → W → Py V × W) (self : Nat) (w : World V W)
    {o : Nat} {n : String} {v : V} (h : w.attrs o n = some v) : (cached fname body self w).2.attrs o n = some v := by
  unfold cached
  simp only
  split
  · exact h
  · next h0 =>
    split
    · simp only
      split
      · next hc => rw [← hc.1, ← hc.2] at h0; rw [h0] at h; cases h
      · exact h
    · exact h

/-- Once the attribute is there, the body never runs again and every call returns it. -/
theorem runCached_of_set {V W : Type} (bodies : String → Nat → W → Py V × W) (calls : List (Nat × String)) (w : World V W)
    (self : Nat) (fname : String) (v : V) (h : w.attrs self ("_" ++ fname) = some v) :
    ∀ i : Nat, calls[i]? = some (self, fname) → (runCached bodies calls w).1[i]? = some (false, Except.ok v) := by
  induction calls generalizing w with
  | nil => intro i hi; simp at hi
  | cons c calls ih =>
    intro i hi
    obtain ⟨s, f⟩ := c
    cases i with
    | zero =>
      simp only [List.getElem?_cons_zero, Option.some.injEq, Prod.mk.injEq] at hi
      obtain ⟨rfl, rfl⟩ := hi
      simp only [runCached, List.getElem?_cons_zero, h]
      simp [cached, h]
    | succ i =>
      simp only [List.getElem?_cons_succ] at hi
      simp only [runCached, List.getElem?_cons_succ]
      exact ih _ (cached_attrs f (bodies f) s w h) i hi

/-- In every history of calls of cached methods on any objects, starting from any world: if a call of method `fname` of
object `self` succeeds, then every later call of the same method on the same object returns that same value without
running the body, whatever happens in between. -/
theorem C60_cached {V W : Type} (bodies : String → Nat → W → Py V × W) (calls : List (Nat × String)) (w : World V W)
    (self : Nat) (fname : String) (v : V) (b : Bool) (i j : Nat) (hij : i < j)
    (hi : calls[i]? = some (self, fname)) (hj : calls[j]? = some (self, fname))
    (hr : (runCached bodies calls w).1[i]? = some (b, .ok v)) :
    (runCached bodies calls w).1[j]? = some (false, .ok v) := by
  induction calls generalizing w i j with
  | nil => simp at hi
  | cons c calls ih =>
    obtain ⟨s, f⟩ := c
    obtain ⟨j, rfl⟩ : ∃ k, j = k + 1 := ⟨j - 1, by omega⟩
    simp only [List.getElem?_cons_succ] at hj
    cases i with
    | zero =>
      simp only [List.getElem?_cons_zero, Option.some.injEq, Prod.mk.injEq] at hi
      obtain ⟨rfl, rfl⟩ := hi
      simp only [runCached, List.getElem?_cons_zero, Option.some.injEq, Prod.mk.injEq] at hr
      simp only [runCached, List.getElem?_cons_succ]
      refine runCached_of_set bodies calls _ s f v ?_ j hj
      have h2 := hr.2
      unfold cached at h2 ⊢
      simp only at h2 ⊢
      split
      · next v' h => rw [h] at h2; simp only [Except.ok.injEq] at h2; rw [h2] at h; exact h
      · next h =>
        rw [h] at h2
        simp only at h2
        split
        · next v' r' hb => rw [hb] at h2; simp only [Except.ok.injEq] at h2; simp [h2]
        · next e r' hb => rw [hb] at h2; cases h2
    | succ i =>
      simp only [List.getElem?_cons_succ] at hi
      simp only [runCached, List.getElem?_cons_succ] at hr ⊢
      exact ih _ i j (by omega) hi hj hr

/-- A call that finds no stored value is a call of the method: same outcome (value or exception) and same side effects; besides,
the value, if there is one, is stored.  A call that finds one changes nothing.  No other attribute is touched. -/
theorem C60_transparent {V W : Type} (fname : String) (body : Nat → W → Py V × W) (self : Nat) (w : World V W) :
    (w.attrs self ("_" ++ fname) = none →
      (cached fname body self w).1 = (body self w.rest).1 ∧ (cached fname body self w).2.rest = (body self w.rest).2 ∧
      (cached fname body self w).2.attrs self ("_" ++ fname) = (body self w.rest).1.toOption) ∧
    (∀ v, w.attrs self ("_" ++ fname) = some v → cached fname body self w = (.ok v, w)) ∧
    ∀ o n, ¬ (o = self ∧ n = "_" ++ fname) → (cached fname body self w).2.attrs o n = w.attrs o n := by
  refine ⟨fun h => ?_, fun v h => ?_, fun o n hn => ?_⟩
  · unfold cached
    simp only [h]
    rcases hb : body self w.rest with ⟨_ | v, r⟩
    · exact ⟨rfl, rfl, h⟩
    · simp [Except.toOption]
  · unfold cached
    simp only [h]
  · unfold cached
    simp only
    split
    · rfl
    · split
      · simp [hn]
      · rfl

/-- The body of one method of one object runs to completion at most once, in every history. -/
theorem C60_once {V W : Type} (bodies : String → Nat → W → Py V × W) (calls : List (Nat × String)) (w : World V W)
    (self : Nat) (fname : String) (r s : Py V) (i j : Nat)
    (hi : calls[i]? = some (self, fname)) (hj : calls[j]? = some (self, fname))
    (hri : (runCached bodies calls w).1[i]? = some (true, r)) (hrj : (runCached bodies calls w).1[j]? = some (true, s)) :
    i = j := by
  have hok : ∀ (calls : List (Nat × String)) (w : World V W) (i : Nat) (r : Py V),
      (runCached bodies calls w).1[i]? = some (true, r) → ∃ v, r = .ok v := by
    intro calls
    induction calls with
    | nil => intro w i r h; simp [runCached] at h
    | cons c calls ih =>
      intro w i r h
      obtain ⟨s, f⟩ := c
      cases i with
      | zero =>
        simp only [runCached, List.getElem?_cons_zero, Option.some.injEq, Prod.mk.injEq] at h
        obtain ⟨h1, rfl⟩ := h
        split at h1
        · next v ha hb =>
          refine ⟨v, ?_⟩
          unfold cached
          simp only [ha]
          split
          · next v' r' hb' => rw [hb'] at hb; exact hb
          · next e r' hb' => rw [hb'] at hb; cases hb
        · cases h1
      | succ i =>
        simp only [runCached, List.getElem?_cons_succ] at h
        exact ih _ i r h
  obtain ⟨v, rfl⟩ := hok _ _ _ _ hri
  obtain ⟨v', rfl⟩ := hok _ _ _ _ hrj
  rcases Nat.lt_trichotomy i j with h | h | h
  · have := C60_cached bodies calls w self fname v true i j h hi hj hri
    rw [this] at hrj; cases hrj
  · exact h
  · have := C60_cached bodies calls w self fname v' true j i h hj hi hrj
    rw [this] at hri; cases hri

/-- Different methods, and the same method of different objects, do not share their cache. -/
theorem C60_separate {V W : Type} (fname : String) (body : Nat → W → Py V × W) (self : Nat) (w : World V W)
    (o : Nat) (g : String) (h : o ≠ self ∨ g ≠ fname) :
    (cached fname body self w).2.attrs o ("_" ++ g) = w.attrs o ("_" ++ g) := by
  unfold cached
  simp only
  split
  · rfl
  · split
    · simp only
      rw [if_neg]
      rintro ⟨h1, h2⟩
      rcases h with h | h
      · exact h h1
      · exact h (underscore_inj h2)
    · rfl

/-- A counter that returns a new number each time it runs: cached, object 1 keeps 0 and object 2 keeps 1. -/
example : (runCached (V := Nat) (W := Nat) (fun _ _ n => (.ok n, n + 1))
    [(1, "f"), (2, "f"), (1, "f"), (2, "f"), (1, "f")] ⟨fun _ _ => none, 0⟩).1 =
    [(true, .ok 0), (true, .ok 1), (false, .ok 0), (false, .ok 1), (false, .ok 0)] := by decide

end Ceacoest.Utils
