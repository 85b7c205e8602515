import Verif.Unparse.Props
import Verif.Unparse.Parse
/-!
# Consequences, examples and locations which are printed incorrectly
-/
namespace Tsar.Unparse

/-- Locations with the same text are the same memory whatever the memory contains: a user cannot confuse
two different locations. What is missing: the same conditions as in `unparse_partial`. -/
theorem unparse_same_partial (w : World) (x : Name) (tmpl minimal tmpl' minimal' : Bool) (ops ops' : List Op) (a b : Int)
    (hal : ∀ o ∈ ops, aligned o) (hal' : ∀ o ∈ ops', aligned o)
    (hok : (w.type x).ok tmpl) (hok' : (w.type x).ok tmpl') (hl : (w.type x).laid)
    (henv : ∀ k, (w.env k).ok tmpl) (henv' : ∀ k, (w.env k).ok tmpl')
    (hlenv : ∀ k, 0 < (w.env k).size → (w.env k).laid)
    (ht : Typed w.env (w.type x) ((segments ops).map (· / 8)))
    (ht' : Typed w.env (w.type x) ((segments ops').map (· / 8)))
    (ha : w.address x ops a) (hb : w.address x ops' b)
    (h : unparse w.env tmpl minimal x (w.type x) ops = unparse w.env tmpl' minimal' x (w.type x) ops') : a = b := by
  have h1 := (unparse_partial w x tmpl minimal ops a hal hok hl henv hlenv ht ha).2
  have h2 := (unparse_partial w x tmpl' minimal' ops' b hal' hok' hl henv' hlenv ht' hb).2
  rw [h] at h1
  exact designates_unique h1 h2

/-! ## An example

```
struct S { struct S *next; int a[2][3]; } *s;
```
-/

/-- `struct S`. -/
def tyS : Ty := .struct 32 (.cons true 10 0 (.ptr (some 0))
  (.cons true 11 8 (.array 24 (.base 4) [⟨some 0, some 2⟩, ⟨some 0, some 3⟩]) .nil))

def wS (load : Int → Int) : World := ⟨fun _ => 1000, fun _ => .ptr (some 0), fun _ => tyS, load⟩

/-- `s[0].next[1].a[1][2]`. -/
def opsS : List Op := [.deref, .deref, .plusU (8 * (32 + 8 + 5 * 4))]

example : unparse (fun _ => tyS) false true 1 (.ptr (some 0)) opsS =
    [.ident 1, .lb, .uconst 0, .rb, .field, .ident 10, .lb, .uconst 1, .rb, .field, .ident 11,
      .lb, .uconst 1, .sep, .uconst 2, .rb] := by rfl

theorem tyS_ok (b : Bool) : tyS.ok b := by
  refine ⟨by simp [Mems.names], trivial, ⟨trivial, ?_, fun _ => ⟨6, rfl, by simp⟩⟩, trivial⟩
  intro ds d hd n hn
  have : ds = [⟨some 0, some 3⟩] ∨ ds = [] := by
    rw [List.suffix_cons_iff] at hd
    rcases hd with h | h
    · cases h; exact .inl rfl
    · rw [List.suffix_cons_iff] at h
      rcases h with h | h
      · cases h; exact .inr rfl
      · simp at h
  rcases this with rfl | rfl <;> (cases hn; decide)

theorem tyS_laid : tyS.laid := by
  refine ⟨by decide, ⟨by decide, by decide, trivial, ⟨by decide, by decide, ⟨by decide, Nat.succ_pos 3, ?_⟩, trivial⟩⟩⟩
  intro n hn
  cases hn; decide

/-- Conditions of `unparse_partial` hold for the example, whatever the memory contains. -/
example (load : Int → Int) : (∀ o ∈ opsS, aligned o) ∧ ((wS load).type 1).ok false ∧ ((wS load).type 1).laid ∧
    (∀ k, ((wS load).env k).ok false) ∧ (∀ k, 0 < ((wS load).env k).size → ((wS load).env k).laid) ∧
    Typed (wS load).env ((wS load).type 1) ((segments opsS).map (· / 8)) ∧
    (wS load).address 1 opsS (load (load 1000) + 60) := by
  refine ⟨?_, trivial, trivial, fun _ => tyS_ok _, fun _ _ => tyS_laid, ?_, ?_⟩
  · simp [opsS, aligned]
  · show Typed (fun _ => tyS) (.ptr (some 0)) [((0 : Nat) : Int), ((0 * tyS.size + 0 : Nat) : Int), 60]
    refine Typed.ptr (env := fun _ => tyS) (Leaf.ptr (some 0)) (by decide) ?_
    refine Typed.object 60 (t' := .ptr (some 0)) ?_
    exact Leaf.struct (o := 0) (k := 0) Mems.Mem.here (Leaf.ptr _)
  · show dwarf load opsS (1000 * 8) none = some ((load (load 1000) + 60) * 8)
    simp [opsS, dwarf, Int.mul_ediv_cancel]
    omega

/-- An offset inside of a number and a negative offset. -/
example : unparse (fun _ => tyS) false true 1 (.ptr (some 0)) [.deref, .constu (8 * 30), .minus] =
    [.deref, .lp, .cast, .address, .ident 1, .lb, .sub, .uconst 0, .rb, .sub, .uconst 30, .rp] := by rfl

/-- A template. -/
example : unparse (fun _ => tyS) true false 1 (.ptr (some 0)) [.deref, .plusU (8 * 8)] =
    [.ident 1, .lb, .unknown, .rb, .field, .ident 11, .lb, .unknown, .sep, .unknown, .rb] := by rfl

/-! ## Incorrect texts -/

/-- A dereference is lost: `union U { T **p; … } u`, memory which is pointed to by `*u.p` is printed as `*u`.
All conditions of `unparse_partial` hold except the type of the object which is dereferenced. -/
theorem unparse_fails : ∃ (w : World) (x : Name) (ops : List Op) (a : Int), (∀ o ∈ ops, aligned o) ∧
    (w.type x).ok false ∧ (w.type x).laid ∧ (∀ k, (w.env k).ok false) ∧
    (∀ k, 0 < (w.env k).size → (w.env k).laid) ∧ w.address x ops a ∧
    ¬ w.designates (unparse w.env false true x (w.type x) ops) a := by
  refine ⟨⟨fun _ => 0, fun _ => .union 8, fun _ => .base 4, fun a => a + 8⟩, 1, [.deref, .deref], 16,
    by simp [aligned], trivial, Nat.succ_pos 7, fun _ => trivial, fun _ _ => Nat.succ_pos 3, by simp [World.address, dwarf], ?_⟩
  intro h
  have h1 : World.designates ⟨fun _ => 0, fun _ => .union 8, fun _ => .base 4, fun a => a + 8⟩
      [.deref, .ident 1] 8 := ⟨_, .un (.deref (.post (.prim (.var 1)))), _, rfl⟩
  have := designates_unique h h1
  omega

/-- The same for a pointer in an array without a constant size: `T *A[n]`, memory which is pointed to by `A[0]`
is printed as `*A`, i.e. as `A[0]`. -/
theorem unparse_vla_fails : ∃ (w : World) (x : Name) (el : Ty) (d : Dim), w.type x = .array 0 el [d] ∧ d.count = none ∧
    el = .ptr (some 0) ∧ w.address x [.deref] (w.load (w.base x)) ∧
    w.designates (unparse w.env false true x (w.type x) [.deref]) (w.base x) ∧
    ¬ w.designates (unparse w.env false true x (w.type x) [.deref]) (w.load (w.base x)) := by
  have h1 : World.designates ⟨fun _ => 0, fun _ => .array 0 (.ptr (some 0)) [⟨some 0, none⟩], fun _ => .base 4,
      fun a => a + 8⟩ [.deref, .ident 1] 0 := ⟨_, .un (.deref (.post (.prim (.var 1)))), _, rfl⟩
  refine ⟨⟨fun _ => 0, fun _ => .array 0 (.ptr (some 0)) [⟨some 0, none⟩], fun _ => .base 4, fun a => a + 8⟩,
    1, _, _, rfl, rfl, rfl, rfl, h1, ?_⟩
  intro h
  have := designates_unique h h1
  exact absurd this (by decide)

/-- If bounds of an array are not known then a text of a template is not an expression. -/
theorem unparse_template_fails : ∃ (w : World) (x : Name), w.address x [] (w.base x) ∧
    unparse w.env true false x (w.type x) [] = [.deref, .ident x, .lb, .unknown, .sep, .rb] ∧
    ∀ e, ¬ Sum (unparse w.env true false x (w.type x) []) e := by
  refine ⟨⟨fun _ => 0, fun _ => .array 40 (.base 4) [⟨none, some 10⟩], fun _ => .base 4, id⟩, 1, rfl, rfl, ?_⟩
  intro e h
  obtain ⟨N, hN⟩ := h.found
  have := hN (N + 4) (by omega)
  simp only at this
  exact absurd (show pSum (N + 4) [.deref, .ident 1, .lb, .unknown, .sep, .rb] = _ from this) (by
    show ¬ (none = some (e, []))
    simp)

/-- Division by zero: a number of elements in a row of an array does not fit into 32 bits. -/
theorem unparse_divide_fails : ∃ (w : World) (x : Name), (∃ size ds, w.type x = .array size (.base 1) ds ∧
      Dim.total ds = some size ∧ 0 < size) ∧
    (unparseU w.env false false x (w.type x) []).bad = true := by
  refine ⟨⟨fun _ => 0, fun _ => .array (2 ^ 33) (.base 1) [⟨some 0, some 2⟩, ⟨some 0, some (2 ^ 32)⟩],
    fun _ => .base 4, id⟩, 1, ⟨_, _, rfl, rfl, by decide⟩, by decide⟩

end Tsar.Unparse
