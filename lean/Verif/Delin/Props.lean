import Verif.Delin.Model
import Verif.Scev.Props

/-!
# Delinearized subscripts denote the same element

Property C82.
-/

namespace Tsar
namespace Delin

open Scev

/-! ## Specification -/

/-- An offset (in bytes) of the address which is calculated with a list of subscripts: each subscript is multiplied by
the size of the indexed type. -/
def offset {S : Type} (eval : S → Int) (l : List (S × Ty)) : Int := (l.map fun s => eval s.1 * s.2.size).sum

/-- An offset (in bytes) of `A[s0][s1]...` for an array with specified sizes of dimensions and with elements of the size
`e`. The size of the first dimension is not used. -/
def rowMajor (e : Int) : List Int → List Int → Int
  | _ :: ds, s :: ss => s * (ds.prod * e) + rowMajor e ds ss
  | _, _ => 0

/-- Sizes of dimensions of a type. -/
def Ty.dims : Ty → List Int
  | .scalar _ _ => []
  | .arr n t => n :: t.dims

/-- The size of an element. -/
def Ty.leaf : Ty → Int
  | .scalar _ s => s
  | .arr _ t => t.leaf

/-- Types which are obtained if subscripts are applied to a value of the type one by one. -/
def Ty.inner : Ty → List Ty
  | .scalar _ _ => []
  | .arr _ t => t :: t.inner

/-- An array with sizes of dimensions `vs`: the last dimensions have constant sizes and form the type `tail`, sizes of
other dimensions are arbitrary expressions. The first size may be unknown. -/
structure Shape (E : Se) (eval : E.S → Int) (w : Nat) (dims : List (Option E.S)) (vs : List Int) (tail : Ty) : Prop where
  len : vs.length = dims.length
  size : ∀ (i : Nat) (v : Int), 1 ≤ i → vs[i]? = some v → ∃ s, dims[i]? = some (some s) ∧ E.ty s = w ∧ eval s ≡ v [ZMOD 2 ^ w]
  tail : vs.drop (lastConst E dims) = tail.dims

/-- The expression is divided by all sizes without remainders. -/
def Exact (E : Se) (f : Nat) : List (Option E.S) → E.S → Prop
  | [], _ => True
  | d :: ds, s => ∃ d' t, d = some d' ∧ E.divide true f s d' = some t ∧ E.isZero t.r = true ∧ Exact E f ds t.q

/-! ## Lemmas -/

theorem Ty.size_eq (t : Ty) : (t.size : Int) = t.dims.prod * t.leaf := by
  induction t with
  | scalar _ s => simp [Ty.size, Ty.dims, Ty.leaf]
  | arr n t ih => simp [Ty.size, Ty.dims, Ty.leaf, ih, Int.mul_assoc]

theorem Ty.inner_length (t : Ty) : t.inner.length = t.dims.length := by
  induction t with
  | scalar _ _ => rfl
  | arr n t ih => simp [Ty.inner, Ty.dims, ih]

theorem rowMajor_nil (e : Int) (vs : List Int) : rowMajor e vs [] = 0 := by
  cases vs <;> rfl

theorem rowMajor_append (e : Int) : ∀ (vs a b : List Int), a.length ≤ vs.length →
    rowMajor e vs (a ++ b) = rowMajor e vs a + rowMajor e (vs.drop a.length) b := by
  intro vs a
  induction a generalizing vs with
  | nil => intro b _; simp [rowMajor_nil]
  | cons s a ih =>
    intro b h
    cases vs with
    | nil => simp at h
    | cons v vs =>
      simp only [List.cons_append, rowMajor, List.length_cons, List.drop_succ_cons]
      rw [ih vs b (by simpa using h)]
      ring

theorem offset_append {S : Type} (eval : S → Int) (a b : List (S × Ty)) :
    offset eval (a ++ b) = offset eval a + offset eval b := by
  simp [offset]

section
variable {E : Se} {eval : E.S → Int} {iter : Nat → Int}

/-- Values of zero subscripts do not change an offset. -/
theorem rowMajor_zeros (H : E.Sound eval iter) (e : Int) (w : Nat) : ∀ (n : Nat) (vs : List Int),
    rowMajor e vs ((List.replicate n (E.const w 0)).map eval) ≡ 0 [ZMOD 2 ^ w] := by
  intro n
  induction n with
  | zero => intro vs; simp [rowMajor_nil, Int.ModEq]
  | succ n ih =>
    intro vs
    cases vs with
    | nil => simp [rowMajor, List.replicate_succ, Int.ModEq]
    | cons v vs =>
      simp only [List.replicate_succ, List.map_cons, rowMajor]
      have := ((H.mkConst w 0).2.mul_right (vs.prod * e)).add (ih vs)
      simpa using this

/-- Subscripts which are applied one by one. -/
theorem offset_prefix (eval : E.S → Int) : ∀ (l : List (E.S × Ty)) (t : Ty) (v : Int), l.map (·.2) <+: t :: t.inner →
    rowMajor t.leaf (v :: t.dims) (l.map fun s => eval s.1) = offset eval l := by
  intro l
  induction l with
  | nil => intro t v _; simp [rowMajor, offset]
  | cons s l ih =>
    intro t v h
    simp only [List.map_cons, List.cons_prefix_cons] at h
    obtain ⟨h1, h2⟩ := h
    simp only [List.map_cons, rowMajor, offset, List.sum_cons]
    rw [h1, Ty.size_eq]
    congr 1
    cases t with
    | scalar i n =>
      simp only [Ty.inner, List.prefix_nil, List.map_eq_nil_iff] at h2
      subst h2
      simp [Ty.dims, rowMajor]
    | arr n t => exact ih t n h2

theorem divAll_spec (H : E.Sound eval iter) {f w : Nat} : ∀ (ds : List (Option E.S)) (vs : List Int) (s q : E.S) (b : Bool),
    ds.length = vs.length → (∀ (i : Nat) (v : Int), vs[i]? = some v → ∃ s, ds[i]? = some (some s) ∧ E.ty s = w ∧ eval s ≡ v [ZMOD 2 ^ w]) →
    E.ty s = w → divAll E true f ds s b = some (some q, false) →
    b = false ∧ E.ty q = w ∧ eval s ≡ eval q * vs.prod [ZMOD 2 ^ w] := by
  intro ds
  induction ds with
  | nil =>
    intro vs s q b hl _ hw h
    cases vs with
    | cons => simp at hl
    | nil =>
      simp only [divAll, Option.some.injEq, Prod.mk.injEq] at h
      obtain ⟨rfl, rfl⟩ := h
      exact ⟨rfl, hw, by simp⟩
  | cons d ds ih =>
    intro vs s q b hl hv hw h
    cases vs with
    | nil => simp at hl
    | cons v vs =>
      obtain ⟨d', hd, hdw, hde⟩ := hv 0 v rfl
      simp only [List.getElem?_cons_zero, Option.some.injEq] at hd
      subst hd
      simp only [divAll, Option.bind_eq_bind, Option.bind_some] at h
      obtain ⟨t, ht, h⟩ := Option.bind_eq_some_iff.1 h
      split at h
      · rename_i hz
        -- The type of the quotient is known if the division is correct.
        by_cases hb : t.bad = true
        · exfalso
          have : ∀ (ds : List (Option E.S)) (s q : E.S), divAll E true f ds s true = some (some q, false) → False := by
            intro ds
            induction ds with
            | nil => intro s q h; simp [divAll] at h
            | cons d ds ih =>
              intro s q h
              simp only [divAll, Option.bind_eq_bind] at h
              obtain ⟨d', -, h⟩ := Option.bind_eq_some_iff.1 h
              obtain ⟨t, -, h⟩ := Option.bind_eq_some_iff.1 h
              split at h
              · simp only [Bool.true_or] at h
                exact ih _ _ h
              · simp at h
          rw [hb, Bool.or_true] at h
          exact this _ _ _ h
        · simp only [Bool.not_eq_true] at hb
          have hD := divide_sound_partial H f s d' t (by rw [hw, hdw]) ht hb
          have htq : E.ty t.q = w := by rw [hD.tyQ, hdw]
          obtain ⟨h1, h2, h3⟩ := ih vs t.q q (b || t.bad) (by simpa using hl) (fun i v hi => by
            obtain ⟨s, hs⟩ := hv (i + 1) v hi
            exact ⟨s, by simpa using hs⟩) htq h
          simp only [Bool.or_eq_false_iff] at h1
          refine ⟨h1.1, h2, ?_⟩
          have e0 := hD.eq
          rw [hdw] at e0
          have hr := H.isZero hz
          rw [hD.tyR, hdw] at hr
          have e1 := (h3.mul_right (eval d')).add hr
          have e2 : eval q * vs.prod * eval d' ≡ eval q * vs.prod * v [ZMOD 2 ^ w] := hde.mul_left _
          refine e0.trans (e1.trans ?_)
          rw [Int.add_zero]
          refine e2.trans ?_
          rw [List.prod_cons, show eval q * (v * vs.prod) = eval q * vs.prod * v by ring]
      · simp at h

/-- A relation between states before and after several iterations. -/
structure Step (eval : E.S → Int) (w : Nat) (e : Int) (vs : List Int) (subs : List (E.S × Ty)) (k : Nat) (st st' : St E.S) :
    Prop where
  bad : st.bad = false
  len : st'.new.length = st.new.length + k
  count : st'.idx + st.extra = st.idx + k + st'.extra
  idx : st.idx ≤ st'.idx
  extra : st'.extra ≤ st.extra
  ty : (∀ x ∈ st.new, E.ty x = w) → ∀ x ∈ st'.new, E.ty x = w
  eq : rowMajor e vs (st'.new.map eval) + offset eval (subs.take st.idx) ≡
    rowMajor e vs (st.new.map eval) + offset eval (subs.take st'.idx) [ZMOD 2 ^ w]

theorem dimLoop_spec (H : E.Sound eval iter) {f w last : Nat} {dims : List (Option E.S)} {vs : List Int} {tail : Ty}
    {subs : List (E.S × Ty)} (hlast : lastConst E dims = last) (hle : last ≤ dims.length) (hS : Shape E eval w dims vs tail)
    (hty : ∀ s ∈ subs, E.ty s.1 = w) (htail : ∀ i s, i + 1 < last → subs[i]? = some s → s.2 = tail) :
    ∀ (k : Nat) (st st' : St E.S), st.new.length + k + 1 ≤ last → st.idx ≤ st.new.length →
    dimLoop E true f w subs k ((dims.take last).drop (st.new.length + 1)) st = some (some st') → st'.bad = false →
    Step eval w tail.leaf vs subs k st st' := by
  intro k
  induction k with
  | zero =>
    intro st st' _ _ h hb
    simp only [dimLoop, Option.some.injEq] at h
    subst h
    exact ⟨hb, rfl, rfl, Nat.le_refl _, Nat.le_refl _, id, Int.ModEq.refl _⟩
  | succ k ih =>
    intro st st' hk hi h hb
    simp only [dimLoop, Option.bind_eq_bind] at h
    obtain ⟨s, hs, h⟩ := Option.bind_eq_some_iff.1 h
    obtain ⟨⟨q, b⟩, hq, h⟩ := Option.bind_eq_some_iff.1 h
    have hlen : vs.length = dims.length := hS.len
    cases q with
    | some q =>
      simp only at h
      have hds : ((dims.take last).drop (st.new.length + 1)).tail = (dims.take last).drop ((st.new ++ [q]).length + 1) := by
        simp [List.tail_drop]
      rw [hds] at h
      have hstep := ih ⟨st.idx + 1, st.extra, st.new ++ [q], b⟩ st' (by simp; omega) (by simp; omega) h hb
      have hbf : b = false := hstep.bad
      subst hbf
      -- The current subscript is a product.
      have hlen' : ((dims.take last).drop (st.new.length + 1)).length = ((vs.take last).drop (st.new.length + 1)).length := by
        simp [hlen]
      obtain ⟨hb0, hqw, heq⟩ := divAll_spec H _ ((vs.take last).drop (st.new.length + 1)) s.1 q st.bad hlen' (by
        intro i v hv
        have hlt : st.new.length + 1 + i < last := by
          by_contra hc
          rw [List.getElem?_drop, List.getElem?_take_eq_none (by omega)] at hv
          simp at hv
        rw [List.getElem?_drop, List.getElem?_take_of_lt hlt] at hv
        obtain ⟨x, hx⟩ := hS.size _ v (by omega) hv
        refine ⟨x, ?_⟩
        rw [List.getElem?_drop, List.getElem?_take_of_lt hlt]
        exact hx) (hty s (List.mem_of_getElem? hs)) hq
      have hmem : s.2 = tail := htail st.idx s (by omega) hs
      have hidx : st.idx < subs.length := (List.getElem?_eq_some_iff.1 hs).1
      have htk : subs.take (st.idx + 1) = subs.take st.idx ++ [s] := by
        rw [List.take_add_one, hs]; rfl
      -- The product of sizes of inner dimensions.
      have hprod : (vs.drop (st.new.length + 1)).prod * tail.leaf =
          ((vs.take last).drop (st.new.length + 1)).prod * (tail.size : Int) := by
        have h1 : vs.drop (st.new.length + 1) = (vs.take last).drop (st.new.length + 1) ++ vs.drop last := by
          conv_lhs => rw [← List.take_append_drop last vs]
          rw [List.drop_append_of_le_length (by simp; omega)]
        have h2 : vs.drop last = tail.dims := by rw [← hlast]; exact hS.tail
        rw [h1, h2, List.prod_append, Ty.size_eq, Int.mul_assoc]
      refine ⟨hb0, ?_, ?_, ?_, ?_, ?_, ?_⟩
      · have := hstep.len
        simp only [List.length_append, List.length_singleton] at this
        omega
      · have := hstep.count
        simp only at this
        omega
      · have := hstep.idx
        simp only at this
        omega
      · exact hstep.extra
      · intro hall
        refine hstep.ty ?_
        intro x hx
        rcases List.mem_append.1 hx with hx | hx
        · exact hall x hx
        · rw [List.mem_singleton.1 hx]; exact hqw
      · have e1 := hstep.eq
        simp only [htk, List.map_append, offset_append] at e1
        rw [rowMajor_append _ _ _ _ (by simp; omega)] at e1
        have hrow : rowMajor tail.leaf (vs.drop (st.new.map eval).length) ([q].map eval) =
            eval q * ((vs.drop (st.new.length + 1)).prod * tail.leaf) := by
          rw [List.length_map, ← List.cons_getElem_drop_succ (l := vs) (h := by omega)]
          simp only [List.map_cons, List.map_nil, rowMajor, rowMajor_nil, Int.add_zero]
        have hoff : offset eval [s] = eval s.1 * tail.size := by simp [offset, hmem]
        rw [hrow, hoff, hprod] at e1
        have e2 := heq.mul_right (tail.size : Int)
        have e3 : eval q * (((vs.take last).drop (st.new.length + 1)).prod * (tail.size : Int)) ≡ eval s.1 * tail.size [ZMOD 2 ^ w] := by
          refine Int.ModEq.trans ?_ e2.symm
          rw [Int.mul_assoc]
        have e4 := e1.trans (((Int.ModEq.refl _).add e3).add_right _)
        have := e4.sub_right (eval s.1 * (tail.size : Int))
        refine Int.ModEq.trans ?_ (this.trans ?_)
        · rw [show ∀ a b c : Int, a + (b + c) - c = a + b from fun a b c => by ring]
        · rw [show ∀ a b c : Int, a + b + c - b = a + c from fun a b c => by ring]
    | none =>
      simp only at h
      split at h
      · rename_i hex
        have hds : ((dims.take last).drop (st.new.length + 1)).tail =
            (dims.take last).drop ((st.new ++ [E.const w 0]).length + 1) := by
          simp [List.tail_drop]
        rw [hds] at h
        have hstep := ih ⟨st.idx, st.extra - 1, st.new ++ [E.const w 0], b⟩ st' (by simp; omega) (by simp; omega) h hb
        have hbf : b = false := hstep.bad
        subst hbf
        have hb0 : st.bad = false := by
          have : ∀ (ds : List (Option E.S)) (s : E.S) (b : Bool), divAll E true f ds s b = some (none, false) → b = false := by
            intro ds
            induction ds with
            | nil => intro s b h; simp [divAll] at h
            | cons d ds ih =>
              intro s b h
              simp only [divAll, Option.bind_eq_bind] at h
              obtain ⟨d', -, h⟩ := Option.bind_eq_some_iff.1 h
              obtain ⟨t, -, h⟩ := Option.bind_eq_some_iff.1 h
              split at h
              · have := ih _ _ h
                simp only [Bool.or_eq_false_iff] at this
                exact this.1
              · simpa using h
          exact this _ _ _ hq
        refine ⟨hb0, ?_, ?_, ?_, ?_, ?_, ?_⟩
        · have := hstep.len
          simp only [List.length_append, List.length_singleton] at this
          omega
        · have := hstep.count
          simp only at this
          omega
        · exact hstep.idx
        · have := hstep.extra
          simp only at this
          omega
        · intro hall
          refine hstep.ty ?_
          intro x hx
          rcases List.mem_append.1 hx with hx | hx
          · exact hall x hx
          · rw [List.mem_singleton.1 hx]; exact (H.mkConst w 0).1
        · have e1 := hstep.eq
          simp only [List.map_append] at e1
          rw [rowMajor_append _ _ _ _ (by simp; omega)] at e1
          have hz := rowMajor_zeros H tail.leaf w 1 (vs.drop (st.new.map eval).length)
          simp only [List.replicate_one] at hz
          refine e1.trans ?_
          have := ((Int.ModEq.refl (n := 2 ^ w) (rowMajor tail.leaf vs (st.new.map eval))).add hz).add_right (offset eval (subs.take st'.idx))
          simpa using this
      · simp at h

/-- Walk over dimensions with constant sizes always succeeds and restores omitted zeros. -/
theorem walk_spec (H : E.Sound eval iter) (w : Nat) : ∀ (t : Ty) (subs : List (E.S × Ty)) (extra : Nat) (new : List E.S),
    (subs.map (·.2)).Sublist t.inner → subs.length + extra = t.dims.length →
    ∃ l, walk (E.const w 0) t subs extra new = (true, new ++ l) ∧ l.length = t.dims.length ∧
      rowMajor t.leaf t.dims (l.map eval) ≡ offset eval subs [ZMOD 2 ^ w] := by
  intro t
  induction t with
  | scalar i n =>
    intro subs extra new hs _
    simp only [Ty.inner, List.sublist_nil, List.map_eq_nil_iff] at hs
    subst hs
    exact ⟨[], by simp [walk], rfl, by simp [rowMajor, offset]⟩
  | arr n t ih =>
    intro subs extra new hs hl
    cases subs with
    | nil =>
      refine ⟨List.replicate extra (E.const w 0), by simp [walk], by simpa using hl, ?_⟩
      simpa [offset] using rowMajor_zeros H (Ty.arr n t).leaf w extra (Ty.arr n t).dims
    | cons s subs =>
      obtain ⟨s, ty⟩ := s
      simp only [Ty.inner, List.map_cons] at hs
      simp only [Ty.dims, List.length_cons] at hl
      by_cases he : t = ty
      · subst he
        have hs' : (subs.map (·.2)).Sublist t.inner := by
          cases hs with
          | cons _ h => exact (List.sublist_cons_self _ _).trans h
          | cons_cons _ h => exact h
        obtain ⟨l, h1, h2, h3⟩ := ih subs extra (new ++ [s]) hs' (by omega)
        refine ⟨s :: l, by simp [walk, h1], by simp [h2, Ty.dims], ?_⟩
        have ho : offset eval ((s, t) :: subs) = eval s * (t.dims.prod * t.leaf) + offset eval subs := by
          simp [offset, Ty.size_eq]
        rw [ho]
        simp only [Ty.dims, Ty.leaf, List.map_cons, rowMajor]
        exact h3.add_left _
      · have hs' : (((s, ty) :: subs).map (·.2)).Sublist t.inner := by
          cases hs with
          | cons _ h => exact h
          | cons_cons _ h => exact absurd rfl he
        have hlen := hs'.length_le
        rw [Ty.inner_length, List.length_map, List.length_cons] at hlen
        obtain ⟨l, h1, h2, h3⟩ := ih ((s, ty) :: subs) (extra - 1) (new ++ [E.const w 0]) hs' (by
          simp only [List.length_cons]; omega)
        refine ⟨E.const w 0 :: l, ?_, by simp [h2, Ty.dims], ?_⟩
        · rw [walk, if_neg he, if_pos (by omega), h1]
          simp
        · simp only [Ty.dims, Ty.leaf, List.map_cons, rowMajor]
          have := ((H.mkConst w 0).2.mul_right (t.dims.prod * t.leaf)).add h3
          simpa using this

theorem lastConst_le (E : Se) (dims : List (Option E.S)) : lastConst E dims ≤ dims.length := by
  unfold lastConst
  have := (List.dropWhile_sublist (isConst E) (l := dims.reverse)).length_le
  simpa using this

/-- Without omitted zeros the number of processed subscripts is the number of dimensions. -/
theorem exact_divAll {f : Nat} : ∀ (ds : List (Option E.S)) (s : E.S) (b : Bool), Exact E f ds s →
    ∃ q b', divAll E true f ds s b = some (some q, b') := by
  intro ds
  induction ds with
  | nil => intro s b _; exact ⟨s, b, rfl⟩
  | cons d ds ih =>
    intro s b h
    obtain ⟨d', t, rfl, h1, h2, h3⟩ := h
    obtain ⟨q, b', h4⟩ := ih t.q (b || t.bad) h3
    refine ⟨q, b', ?_⟩
    simp only [divAll, Option.bind_eq_bind, Option.bind_some, h1, h2, if_true]
    exact h4

/-- All subscripts are divided without remainders, so there are no additional zeros. -/
theorem dimLoop_exact {f w last : Nat} {dims : List (Option E.S)} {subs : List (E.S × Ty)} : ∀ (k : Nat) (st : St E.S),
    st.idx = st.new.length → st.new.length + k ≤ subs.length →
    (∀ i s, st.new.length ≤ i → i < st.new.length + k → subs[i]? = some s → Exact E f ((dims.take last).drop (i + 1)) s.1) →
    ∃ st', dimLoop E true f w subs k ((dims.take last).drop (st.new.length + 1)) st = some (some st') ∧
      st'.idx = st.new.length + k ∧ st'.new.length = st.new.length + k ∧ st'.extra = st.extra := by
  intro k
  induction k with
  | zero => intro st hi _ _; exact ⟨st, by simp [dimLoop], by simpa using hi, rfl, rfl⟩
  | succ k ih =>
    intro st hi hl he
    have hlt : st.idx < subs.length := by omega
    obtain ⟨q, b, hq⟩ := exact_divAll _ _ st.bad (he st.new.length subs[st.new.length] (Nat.le_refl _) (by omega)
      (List.getElem?_eq_getElem _))
    have hds : ((dims.take last).drop (st.new.length + 1)).tail = (dims.take last).drop ((st.new ++ [q]).length + 1) := by
      simp [List.tail_drop]
    obtain ⟨st', h1, h2, h3, h4⟩ := ih ⟨st.idx + 1, st.extra, st.new ++ [q], b⟩ (by simp [hi]) (by simp; omega) (by
      intro i s h1 h2 h3
      simp only [List.length_append, List.length_singleton] at h1 h2
      exact he i s (by omega) (by omega) h3)
    refine ⟨st', ?_, ?_, ?_, h4⟩
    · simp only [dimLoop, Option.bind_eq_bind]
      rw [hi, List.getElem?_eq_getElem (by omega)]
      simp only [Option.bind_some, hq]
      rw [hds]
      simpa [hi] using h1
    · simp only [List.length_append, List.length_singleton] at h2
      omega
    · simp only [List.length_append, List.length_singleton] at h3
      omega

/-! ## Theorems -/

/-- C82 (partial). An access without omitted subscripts, which is marked as delinearized, denotes the same element (or
the beginning of the same part) of the array: subscripts are calculated for each dimension in the order of dimensions.
Missing: see `clean_shift_fails`, `clean_tail_fails`, `clean_type_fails`. -/
theorem clean_complete_partial (H : E.Sound eval iter) (f w : Nat) (dims : List (Option E.S)) (vs : List Int) (tail base : Ty)
    (r : Rng E.S) (hS : Shape E eval w dims vs tail) (hty : ∀ s ∈ r.subs, E.ty s.1 = w) (hz : r.needZero = false)
    (hT : r.subs.map (·.2) <+: List.replicate (lastConst E dims) tail ++ tail.inner) (new : List E.S)
    (h : clean E true f w dims base r = some (some (new, false))) :
    new.length = r.subs.length ∧ rowMajor tail.leaf vs (new.map eval) ≡ offset eval r.subs [ZMOD 2 ^ w] := by
  have hlen : vs.length = dims.length := hS.len
  have hle := lastConst_le E dims
  have htail := hS.tail
  generalize hlast : lastConst E dims = last at *
  unfold clean at h
  simp only [hlast, hz, Bool.false_eq_true, if_false, gt_iff_lt, Nat.lt_irrefl] at h
  split at h
  · rename_i h0
    subst h0
    simp only [Option.some.injEq, Prod.mk.injEq, and_true] at h
    subst h
    refine ⟨by simp, ?_⟩
    simp only [List.drop_zero, List.replicate_zero, List.nil_append] at htail hT
    rw [htail]
    cases tail with
    | scalar i n =>
      simp only [Ty.inner, List.prefix_nil, List.map_eq_nil_iff] at hT
      rw [hT]
      simp [rowMajor, offset]
    | arr n t =>
      have := offset_prefix eval r.subs t n hT
      simp only [Ty.leaf, Ty.dims, List.map_map]
      rw [← this]
      exact Int.ModEq.refl _
  · rename_i h0
    split at h
    · simp at h
    · simp only [Option.bind_eq_bind] at h
      obtain ⟨o, ho, h⟩ := Option.bind_eq_some_iff.1 h
      cases o with
      | none => simp at h
      | some st =>
        simp only [Option.some.injEq] at h
        obtain ⟨l, hl, h⟩ := Option.map_eq_some_iff.1 h
        simp only [Prod.mk.injEq] at h
        obtain ⟨rfl, hb⟩ := h
        have hdrop : (dims.take last).tail = (dims.take last).drop ((St.mk (S := E.S) 0 0 [] false).new.length + 1) := by
          simp
        rw [hdrop] at ho
        -- Types of the first subscripts.
        have htys : ∀ i s, i < last → r.subs[i]? = some s → s.2 = tail := by
          intro i s hi hs
          obtain ⟨y, hy⟩ := hT
          have : (List.replicate last tail ++ tail.inner)[i]? = some s.2 := by
            rw [← hy, List.getElem?_append_left (by simpa using (List.getElem?_eq_some_iff.1 hs).1)]
            simp [hs]
          rw [List.getElem?_append_left (by simpa using hi), List.getElem?_replicate, if_pos hi] at this
          exact (Option.some.inj this).symm
        have hstep := dimLoop_spec H hlast hle hS hty (fun i s hi hs => htys i s (by omega) hs) _ _ st (by simp; omega)
          (Nat.le_refl _) ho hb
        have e1 := hstep.eq
        have e2 := hstep.count
        have e3 := hstep.extra
        have e4 := hstep.len
        simp only [List.length_nil, Nat.zero_add, Nat.le_zero_eq] at e2 e3 e4
        unfold complete at hl
        rw [if_neg (by omega)] at hl
        simp only [Option.some.injEq] at hl
        subst hl
        have hidx : st.idx = st.new.length := by omega
        refine ⟨by simp only [List.length_append, List.length_map, List.length_drop]; omega, ?_⟩
        rw [List.map_append, rowMajor_append _ _ _ _ (by simp; omega)]
        simp only [List.map_nil, List.take_zero] at e1
        rw [rowMajor_nil] at e1
        have e5 : rowMajor tail.leaf (vs.drop (st.new.map eval).length) (((r.subs.drop st.idx).map (·.1)).map eval) =
            offset eval (r.subs.drop st.idx) := by
          by_cases hc : r.subs.length ≤ last - 1
          · have : r.subs.drop st.idx = [] := by
              rw [List.drop_eq_nil_iff]; omega
            rw [this]
            simp [rowMajor_nil, offset]
          · have hidx' : st.idx = last - 1 := by omega
            have hv : vs.drop (last - 1) = vs[last - 1]'(by omega) :: tail.dims := by
              rw [← List.cons_getElem_drop_succ (l := vs) (h := by omega), ← htail]
              congr 2
              omega
            rw [List.length_map, ← hidx, hidx', hv, List.map_map]
            refine offset_prefix eval (r.subs.drop (last - 1)) tail _ ?_
            obtain ⟨y, hy⟩ := hT
            refine ⟨y, ?_⟩
            have := congrArg (List.drop (last - 1)) hy
            rw [List.drop_append_of_le_length (by simp; omega), List.drop_append_of_le_length (by simp), List.drop_replicate,
              show last - (last - 1) = 1 by omega] at this
            simpa using this
        rw [e5]
        have e6 := e1.add_right (offset eval (r.subs.drop st.idx))
        have e7 : offset eval (r.subs.take st.idx) + offset eval (r.subs.drop st.idx) = offset eval r.subs := by
          rw [← offset_append, List.take_append_drop]
        have e8 : offset eval ([] : List (E.S × Ty)) = 0 := rfl
        rw [e8] at e6
        refine Int.ModEq.trans ?_ (e6.trans ?_)
        · simp
        · rw [← e7]; simp


/-- C82 (partial). If all sizes of dimensions of an array may be not constant and a single subscript is omitted, an access
which is marked as delinearized denotes the same element: a zero is added for the omitted subscript. -/
theorem clean_zero_partial (H : E.Sound eval iter) (f w : Nat) (dims : List (Option E.S)) (vs : List Int) (id size : Nat)
    (base : Ty) (r : Rng E.S) (hS : Shape E eval w dims vs (.scalar id size)) (hty : ∀ s ∈ r.subs, E.ty s.1 = w)
    (hz : r.needZero = true) (hN : r.subs.length + 1 = dims.length) (hT : ∀ s ∈ r.subs, s.2 = .scalar id size)
    (new : List E.S) (h : clean E true f w dims base r = some (some (new, false))) :
    new.length = dims.length ∧ rowMajor size vs (new.map eval) ≡ offset eval r.subs [ZMOD 2 ^ w] := by
  have hlen : vs.length = dims.length := hS.len
  have hle := lastConst_le E dims
  have htail := hS.tail
  generalize hlast : lastConst E dims = last at *
  simp only [Ty.dims, List.drop_eq_nil_iff] at htail
  have hld : last = dims.length := by omega
  unfold clean at h
  simp only [hlast, hz, if_true] at h
  rw [if_neg (by omega)] at h
  split at h
  · simp at h
  · simp only [Option.bind_eq_bind] at h
    obtain ⟨o, ho, h⟩ := Option.bind_eq_some_iff.1 h
    cases o with
    | none => simp at h
    | some st =>
      simp only [Option.some.injEq] at h
      obtain ⟨l, hl, h⟩ := Option.map_eq_some_iff.1 h
      simp only [Prod.mk.injEq] at h
      obtain ⟨rfl, hb⟩ := h
      have hdrop : (dims.take last).tail = (dims.take last).drop ((St.mk (S := E.S) 0 0 [] false).new.length + 1) := by
        simp
      rw [hdrop] at ho
      have hstep := dimLoop_spec H hlast hle hS hty (fun i s _ hs => hT s (List.mem_of_getElem? hs))
        (min (last - 1) r.subs.length) ⟨0, dims.length - r.subs.length, [], false⟩ st (by simp only [List.length_nil]; omega)
        (Nat.le_refl _) ho hb
      have e1 := hstep.eq
      have e2 := hstep.count
      have e3 := hstep.extra
      have e4 := hstep.len
      simp only [List.length_nil, Nat.zero_add] at e2 e3 e4
      have hm : min (last - 1) r.subs.length = last - 1 := by omega
      rw [hm] at e2 e4
      simp only [List.map_nil, List.take_zero, Ty.leaf] at e1
      rw [rowMajor_nil, show offset eval ([] : List (E.S × Ty)) = 0 from rfl, Int.add_zero, Int.zero_add] at e1
      have e7 : offset eval (r.subs.take st.idx) + offset eval (r.subs.drop st.idx) = offset eval r.subs := by
        rw [← offset_append, List.take_append_drop]
      unfold complete at hl
      by_cases hex : st.extra > 0
      · rw [if_pos hex, List.getElem?_eq_none (by omega)] at hl
        simp only [Option.some.injEq] at hl
        subst hl
        refine ⟨by simp only [List.length_append, List.length_replicate]; omega, ?_⟩
        rw [List.map_append, rowMajor_append _ _ _ _ (by simp; omega)]
        have hz := rowMajor_zeros H size w st.extra (vs.drop (st.new.map eval).length)
        have hd : r.subs.drop st.idx = [] := by rw [List.drop_eq_nil_iff]; omega
        rw [hd, show offset eval ([] : List (E.S × Ty)) = 0 from rfl, Int.add_zero] at e7
        rw [← e7]
        simpa using e1.add hz
      · rw [if_neg hex] at hl
        simp only [Option.some.injEq] at hl
        subst hl
        refine ⟨by simp only [List.length_append, List.length_map, List.length_drop]; omega, ?_⟩
        rw [List.map_append, rowMajor_append _ _ _ _ (by simp; omega), ← e7]
        refine e1.add ?_
        have hidx : st.idx < r.subs.length := by omega
        have hd : r.subs.drop st.idx = [r.subs[st.idx]] := by
          rw [← List.cons_getElem_drop_succ (h := hidx)]
          congr 1
          rw [List.drop_eq_nil_iff]; omega
        have hv : vs.drop st.new.length = [vs[st.new.length]'(by omega)] := by
          rw [← List.cons_getElem_drop_succ (h := by omega)]
          congr 1
          rw [List.drop_eq_nil_iff]; omega
        rw [hd, List.length_map, hv]
        simp [rowMajor, offset, hT _ (List.getElem_mem hidx), Ty.size, Int.ModEq]

/-- C82 (partial). If subscripts of dimensions with constant sizes are omitted and other subscripts are divided by sizes
of dimensions without remainders, the access is delinearized and denotes the same element: zeros are added for omitted
subscripts according to types. -/
theorem clean_tail_partial (H : E.Sound eval iter) (f w : Nat) (dims : List (Option E.S)) (vs : List Int) (tail base : Ty)
    (r : Rng E.S) (hS : Shape E eval w dims vs tail) (hty : ∀ s ∈ r.subs, E.ty s.1 = w) (hz : r.needZero = true)
    (hg : r.noGep = false) (hN : r.subs.length < dims.length) (hbase : lastConst E dims = 0 → base = tail)
    (rest : List Ty) (hT : r.subs.map (·.2) = List.replicate (lastConst E dims) tail ++ rest) (hrest : rest.Sublist tail.inner)
    (hE : ∀ i s, i + 1 < lastConst E dims → r.subs[i]? = some s →
      Exact E f ((dims.take (lastConst E dims)).drop (i + 1)) s.1) :
    ∃ new bad, clean E true f w dims base r = some (some (new, bad)) ∧ new.length = dims.length ∧
      (bad = false → rowMajor tail.leaf vs (new.map eval) ≡ offset eval r.subs [ZMOD 2 ^ w]) := by
  have hlen : vs.length = dims.length := hS.len
  have hle := lastConst_le E dims
  have htail := hS.tail
  generalize hlast : lastConst E dims = last at *
  have hdl : tail.dims.length = dims.length - last := by rw [← htail]; simp [hlen]
  have hsl : r.subs.length = last + rest.length := by
    have := congrArg List.length hT
    simpa using this
  have hrl := hrest.length_le
  rw [Ty.inner_length] at hrl
  have harr : ∃ n t, tail = .arr n t := by
    cases tail with
    | scalar i n => simp [Ty.dims] at hdl; omega
    | arr n t => exact ⟨n, t, rfl⟩
  have hext : ∀ (l : List (E.S × Ty)) (e : Nat) (new : List E.S), addExtra (E.const w 0) tail l e new = walk (E.const w 0) tail l e new := by
    obtain ⟨n, t, rfl⟩ := harr
    intros; rfl
  unfold clean
  simp only [hlast, hz, hg, if_true, Bool.false_eq_true, if_false]
  by_cases h0 : last = 0
  · rw [if_pos h0, if_pos (by omega), hbase h0, hext]
    subst h0
    simp only [List.replicate_zero, List.nil_append] at hT
    obtain ⟨l, h1, h2, h3⟩ := walk_spec H w tail r.subs (dims.length - r.subs.length) [] (by rw [hT]; exact hrest) (by omega)
    refine ⟨l, false, by rw [h1]; simp, by omega, fun _ => ?_⟩
    rw [List.drop_zero] at htail
    rw [htail]
    exact h3
  · rw [if_neg h0]
    have hdrop : (dims.take last).tail = (dims.take last).drop ((St.mk (S := E.S) 0 0 [] false).new.length + 1) := by
      simp
    have hm : min (last - 1) r.subs.length = last - 1 := by omega
    obtain ⟨st, h1, h2, h3, h4⟩ := dimLoop_exact (E := E) (f := f) (w := w) (last := last) (dims := dims) (subs := r.subs)
      (last - 1) ⟨0, dims.length - r.subs.length, [], false⟩ rfl (by simp; omega) (fun i s _ hi hs => hE i s (by simp at hi; omega) hs)
    simp only [List.length_nil, Nat.zero_add] at h2 h3 h4
    rw [hm, hdrop]
    simp only [Option.bind_eq_bind]
    rw [show (St.mk (S := E.S) 0 0 [] false).new.length = (St.mk (S := E.S) 0 (dims.length - r.subs.length) [] false).new.length from rfl, h1]
    simp only [Option.bind_some]
    -- The subscript of the last dimension which size is not constant.
    have hlt : last - 1 < r.subs.length := by omega
    have hsty : (r.subs[last - 1]).2 = tail := by
      have : (r.subs.map (·.2))[last - 1]? = some (r.subs[last - 1]).2 := by simp [hlt]
      rw [hT, List.getElem?_append_left (by simp; omega), List.getElem?_replicate, if_pos (by omega)] at this
      exact (Option.some.inj this).symm
    have hdr : (r.subs.drop (last - 1 + 1)).map (·.2) = rest := by
      rw [List.map_drop, hT, show last - 1 + 1 = last by omega, List.drop_append_of_le_length (by simp)]
      simp
    have hd2 : r.subs.drop (last - 1) = r.subs[last - 1] :: r.subs.drop (last - 1 + 1) :=
      (List.cons_getElem_drop_succ (h := hlt)).symm
    obtain ⟨l, w1, w2, w3⟩ := walk_spec H w tail (r.subs.drop (last - 1 + 1)) st.extra (st.new ++ [(r.subs[last - 1]).1])
      (by rw [hdr]; exact hrest) (by simp only [List.length_drop]; omega)
    have hc : complete (E.const w 0) r.subs st = some (st.new ++ [(r.subs[last - 1]).1] ++ l) := by
      unfold complete
      rw [if_pos (by omega), h2, List.getElem?_eq_getElem hlt]
      simp only [hsty, hext, w1, if_true]
    refine ⟨st.new ++ [(r.subs[last - 1]).1] ++ l, st.bad, by rw [hc]; rfl, ?_, ?_⟩
    · simp only [List.length_append, List.length_singleton]; omega
    · intro hb
      have htys : ∀ i s, i + 1 < last → r.subs[i]? = some s → s.2 = tail := by
        intro i s hi hs
        have : (r.subs.map (·.2))[i]? = some s.2 := by simp [hs]
        rw [hT, List.getElem?_append_left (by simp; omega), List.getElem?_replicate, if_pos (by omega)] at this
        exact (Option.some.inj this).symm
      have hstep := dimLoop_spec H hlast hle hS hty htys _ _ st (by simp; omega) (Nat.le_refl _) h1 hb
      have e1 := hstep.eq
      simp only [List.map_nil, List.take_zero] at e1
      rw [rowMajor_nil, show offset eval ([] : List (E.S × Ty)) = 0 from rfl, Int.add_zero, Int.zero_add, h2] at e1
      rw [List.append_assoc, List.map_append, rowMajor_append _ _ _ _ (by simp; omega)]
      have hv : vs.drop (st.new.map eval).length = vs[last - 1]'(by omega) :: tail.dims := by
        rw [List.length_map, h3, ← List.cons_getElem_drop_succ (l := vs) (h := by omega), ← htail]
        congr 2
        omega
      rw [hv]
      simp only [List.map_append, List.map_cons, List.map_nil, List.cons_append, List.nil_append, rowMajor]
      have e7 : offset eval r.subs = offset eval (r.subs.take (last - 1)) + (eval (r.subs[last - 1]).1 * (tail.dims.prod * tail.leaf) +
          offset eval (r.subs.drop (last - 1 + 1))) := by
        conv_lhs => rw [← List.take_append_drop (last - 1) r.subs, offset_append, hd2]
        congr 1
        have : offset eval (r.subs[last - 1] :: r.subs.drop (last - 1 + 1)) =
            eval (r.subs[last - 1]).1 * ((r.subs[last - 1]).2.size : Int) + offset eval (r.subs.drop (last - 1 + 1)) := by
          simp only [offset, List.map_cons, List.sum_cons]
        rw [this, hsty, Ty.size_eq]
      rw [e7]
      exact e1.add (w3.add_left _)

/-- C82. An access without omitted subscripts is delinearized if subscripts are divided by sizes of dimensions without
remainders. -/
theorem clean_succeeds (f w : Nat) (dims : List (Option E.S)) (base : Ty) (r : Rng E.S) (hz : r.needZero = false)
    (hg : r.noGep = false)
    (hE : ∀ i s, i + 1 < lastConst E dims → r.subs[i]? = some s →
      Exact E f ((dims.take (lastConst E dims)).drop (i + 1)) s.1) :
    ∃ new bad, clean E true f w dims base r = some (some (new, bad)) := by
  unfold clean
  simp only [hz, hg, Bool.false_eq_true, if_false, gt_iff_lt, Nat.lt_irrefl]
  split
  · exact ⟨_, _, rfl⟩
  · have hdrop : (dims.take (lastConst E dims)).tail =
        (dims.take (lastConst E dims)).drop ((St.mk (S := E.S) 0 0 [] false).new.length + 1) := by
      simp
    rw [hdrop]
    obtain ⟨st, h1, h2, h3, h4⟩ := dimLoop_exact (E := E) (f := f) (w := w) (last := lastConst E dims) (dims := dims)
      (subs := r.subs) (min (lastConst E dims - 1) r.subs.length) ⟨0, 0, [], false⟩ rfl (by simp) (fun i s _ hi hs =>
        hE i s (by simp at hi; omega) hs)
    rw [h1]
    simp only [Option.bind_eq_bind, Option.bind_some]
    simp only at h4
    unfold complete
    rw [if_neg (by omega)]
    exact ⟨_, _, rfl⟩

theorem walk_keeps {S : Type} (zero : S) : ∀ (t : Ty) (subs : List (S × Ty)) (extra : Nat) (new new' : List S),
    walk zero t subs extra new = (true, new') → ∃ l, new' = new ++ l ∧ (subs.map (·.1)).Sublist l := by
  intro t
  induction t with
  | scalar a b =>
    intro subs extra new new' h
    simp only [walk, Prod.mk.injEq, List.isEmpty_iff] at h
    exact ⟨[], by simp [h.2], by simp [h.1]⟩
  | arr n t ih =>
    intro subs extra new new' h
    cases subs with
    | nil =>
      simp only [walk, Prod.mk.injEq, true_and] at h
      exact ⟨_, h.symm, by simp⟩
    | cons s subs =>
      obtain ⟨s, ty⟩ := s
      simp only [walk] at h
      split at h
      · obtain ⟨l, h1, h2⟩ := ih _ _ _ _ h
        exact ⟨s :: l, by simp [h1], by simpa using h2⟩
      · split at h
        · obtain ⟨l, h1, h2⟩ := ih _ _ _ _ h
          exact ⟨zero :: l, by simp [h1], h2.cons zero⟩
        · simp at h

/-- C82. If sizes of all dimensions are constants, subscripts of an access which is marked as delinearized are never lost,
changed or reordered, even if types of indexes differ from types of elements: constant zeros may be added only. -/
theorem clean_keeps (E : Se) (safe : Bool) (f w : Nat) (dims : List (Option E.S)) (base : Ty) (r : Rng E.S)
    (hc : lastConst E dims = 0) (new : List E.S) (b : Bool) (h : clean E safe f w dims base r = some (some (new, b))) :
    (r.subs.map (·.1)).Sublist new := by
  unfold clean at h
  simp only [hc, if_true] at h
  generalize (if r.needZero = true then dims.length - r.subs.length else 0) = extra at h
  split at h
  · cases base with
    | scalar a c => simp [addExtra] at h
    | arr n t =>
      simp only [addExtra] at h
      rcases hw : walk (E.const w 0) (.arr n t) r.subs extra [] with ⟨ok, l⟩
      simp only [hw] at h
      cases ok with
      | false => simp at h
      | true =>
        obtain ⟨l', h1, h2⟩ := walk_keeps _ _ _ _ _ _ hw
        simp only [if_true, Option.some.injEq, Prod.mk.injEq] at h
        rw [← h.1, h1]
        simpa using h2
  · simp only [Option.some.injEq, Prod.mk.injEq] at h
    rw [← h.1]

end

end Delin
end Tsar
