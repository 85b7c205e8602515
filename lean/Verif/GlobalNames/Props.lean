import Verif.GlobalNames.Model

/-!
# Global declarations of a translation unit (C182)
-/

namespace Tsar.GlobalNames

/-! ## Specification -/

/-- Declarations inside a declaration, itself included, in the order of a source code: numbers and
kinds. -/
def preorder : D → List (ℕ × Kind)
  | .mk i k ks => (i, k) :: ks.flatMap preorder

/-- Declarations inside a declaration. -/
def inside : D → List (ℕ × Kind)
  | .mk _ _ ks => ks.flatMap preorder

/-- A top-level declaration. -/
def head : D → ℕ × Kind
  | .mk i k _ => (i, k)

/-- The names which a top-level declaration in C adds to the global scope: its own name, and tags and
enumerators which are declared inside a tag. -/
def adds (d : D) : List ℕ :=
  (if (head d).2 = .unnamed then [] else [(head d).1]) ++
  if (head d).2 = .tag then
    ((inside d).filter fun p => p.2 == .tag || p.2 == .enumerator).map Prod.fst
  else []

/-! ## C182 -/

mutual
theorem trav_some (cpp : Bool) (o : ℕ × Kind) : ∀ (d : D) (out : List (ℕ × ℕ)),
    trav cpp d (some o, out) = (some o, out ++
      ((preorder d).filter fun p => nested cpp o.2 p.2).map fun p => (p.1, o.1))
  | .mk i k ks, out => by
    rw [trav, list_some cpp o ks, preorder, List.filter_cons]
    cases nested cpp o.2 k <;> simp

theorem list_some (cpp : Bool) (o : ℕ × Kind) : ∀ (ds : List D) (out : List (ℕ × ℕ)),
    travList cpp ds (some o, out) = (some o, out ++
      ((ds.flatMap preorder).filter fun p => nested cpp o.2 p.2).map fun p => (p.1, o.1))
  | [], out => by simp [travList]
  | d :: ds, out => by
    rw [travList, trav_some cpp o d, list_some cpp o ds]
    simp [List.append_assoc]
end

/-- Pairs which are added for a top-level declaration. -/
def pairs (cpp : Bool) (d : D) : List (ℕ × ℕ) :=
  (if hasName (head d).2 then [((head d).1, (head d).1)] else []) ++
  ((inside d).filter fun p => nested cpp (head d).2 p.2).map fun p => (p.1, (head d).1)

theorem list_none (cpp : Bool) : ∀ (ds : List D) (out : List (ℕ × ℕ)),
    travList cpp ds (none, out) = (none, out ++ ds.flatMap (pairs cpp))
  | [], out => by simp [travList]
  | .mk i k ks :: ds, out => by
    rw [travList, trav, list_some cpp (i, k) ks, list_none cpp ds, List.flatMap_cons, pairs, head,
      inside]
    cases hasName k <;> simp [List.append_assoc]

theorem pairs_c (d : D) : pairs false d = (adds d).map fun n => (n, (head d).1) := by
  obtain ⟨i, k, ks⟩ := d
  unfold pairs adds hasName nested
  cases k <;> simp [head, inside, List.map_map, Function.comp_def]

/-- **C182**, partial: for each translation unit in C registered declarations are exactly the ones which
add names to the global scope, each with the top-level declaration which contains it, in the order of
the source code, without repetitions. Missing: C++, see `cpp_fails`. -/
theorem globals_partial (top : List D) :
    globals false top = top.flatMap fun d => (adds d).map fun n => (n, (head d).1) := by
  unfold globals
  rw [list_none, List.nil_append]
  simp only
  congr 1
  funext d
  exact pairs_c d

/-- **C182**: in C++ each named top-level declaration is registered, and nothing else. -/
theorem globals_cpp (top : List D) :
    globals true top =
      (top.filter fun d => (head d).2 ≠ .unnamed).map fun d => ((head d).1, (head d).1) := by
  unfold globals
  rw [list_none, List.nil_append]
  simp only
  induction top with
  | nil => rfl
  | cons d ds ih =>
    obtain ⟨i, k, ks⟩ := d
    rw [List.flatMap_cons, ih, List.filter_cons]
    cases k <;> simp [pairs, head, hasName, nested]

/-- **C182**, disagreement: in C++ an enumerator of a global enumeration is visible in the global scope
but it is not registered. -/
theorem cpp_fails : ∃ (top : List D), ∃ d ∈ top, ∃ n ∈ adds d,
    ∀ o, (n, o) ∉ globals true top := by
  refine ⟨[.mk 1 .tag [.mk 2 .enumerator []]], _, List.mem_singleton.2 rfl, 2, ?_, fun o => ?_⟩
  · simp [adds, head, inside, preorder]
  · rw [globals_cpp]
    simp [head]

/-- `struct S { struct T { enum { A } e; } t; }; int f(int p);` -/
example : globals false [.mk 1 .tag [.mk 2 .tag [.mk 3 .tag [.mk 4 .enumerator []], .mk 5 .named []],
    .mk 6 .named []], .mk 7 .named [.mk 8 .named [], .mk 9 .tag []]] =
    [(1, 1), (2, 1), (3, 1), (4, 1), (7, 7)] := by
  rw [globals_partial]
  simp [adds, head, inside, preorder]

end Tsar.GlobalNames
