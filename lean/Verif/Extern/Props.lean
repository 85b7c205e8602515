import Verif.Extern.Export

/-!
# Import and export of analysis results: negative results and examples
-/
namespace Tsar.Extern

open BitTrait (UnitTrait DepTrait setDep)

/-- **C127**, negative. A variable which is modified and which is listed as an induction variable (and
is accessed) is imported as a shared one: `TraitT` has no place for induction variables. Dependences
which are found by the analyzer disappear. -/
theorem import_induction_fails : ∃ (uid : String → Option Nat) (info : Info) (l : LoopJ) (c : Cache)
    (i : Nat) (v : VarLoc) (t t' : Traits), l ∈ info.loops ∧ i ∈ l.induction.map Prod.fst ∧
    Denotes uid info i v ∧ buildTraitCache uid info l = some c ∧ Valid t ∧
    updateMemory uid info c (.estimate (some v)) t = some t' ∧
    t.dep .flow = true ∧ t'.dep .flow = false ∧ t'.dep .shared = true := by
  refine ⟨fun _ => some 0,
    { vars := [⟨"a.c", 1, 2, "i"⟩]
      loops := [{ file := "a.c", line := 3, column := 4, read := [0], write := [0],
                  induction := [(0, (none, none, none))] }] }, _, _, 0, ⟨0, 1, 2, "i"⟩,
    { example1 [.flow] [] with flow := some (mkDep {} []) }, _, List.mem_singleton.2 rfl, by decide,
    ⟨⟨"a.c", 1, 2, "i"⟩, rfl, by decide, rfl, rfl, rfl, rfl⟩, rfl, ⟨by rfl, ?_⟩, rfl, by decide,
    by decide, by decide⟩
  intro x y
  cases x <;> cases y <;> decide

/-- **C128**, negative. Import of a distance drops causes of the dependence the analyzer has found:
flags are never copied because the check is performed for `No`. -/
theorem import_causes_fails : ∃ (e : Ext) (t t' : Traits) (d d' : Dep), Valid t ∧
    update e t = some t' ∧ t.flow = some d ∧ t'.flow = some d' ∧ d.flags.call = true ∧
    d.causes ≠ [] ∧ d'.flags.call = false ∧ d'.causes = [] := by
  refine ⟨{ read := true, write := true, flow := some (some 1, some 1) },
    { example1 [.flow] [] with flow := some (mkDep { call := true } [(none, none)] [7]) },
    _, _, _, ⟨by rfl, ?_⟩, rfl, rfl, rfl, rfl, by decide, rfl, rfl⟩
  intro x y
  cases x <;> cases y <;> decide

/-- **C128**, negative. If the analyzer has found a dependence without a description, import uses a
null pointer. -/
theorem import_null_fails : ∃ (e : Ext) (t : Traits), Valid t ∧ update e t = none := by
  refine ⟨{ read := true, write := true, flow := some (some 1, some 1) }, example1 [.flow] [],
    ⟨by rfl, ?_⟩, rfl⟩
  intro x y
  cases x <;> cases y <;> decide

/-- **C126**, negative. A file with a wrong index of a variable leads to undefined behaviour. -/
theorem import_index_fails : ∃ (uid : String → Option Nat) (info : Info) (p : PoolLoop),
    p.Valid ∧ loadLoop uid info p = none :=
  ⟨fun _ => some 0,
    { loops := [{ file := "a.c", line := 3, column := 4, read := [0] }] },
    ⟨[none, some ("a.c", 3, 4)], []⟩, by simp [PoolLoop.Valid], rfl⟩

/-! ### Examples -/

/-- A file which describes a loop. -/
def file1 : Info :=
  { functions := [⟨"a.c", 9, "f", true⟩]
    vars := [⟨"./a.c", 1, 5, "x"⟩, ⟨"./a.c", 1, 8, "y"⟩, ⟨"./b.c", 1, 8, "y"⟩]
    loops := [{ file := "./a.c", line := 3, column := 4, read := [0, 1], write := [0, 1],
                priv := [0], flow := [(1, (some 2, some 2))], useAfter := [1] }] }

/-- Two paths denote one file. -/
def uid1 (p : String) : Option Nat :=
  if p = "a.c" ∨ p = "./a.c" then some 1 else if p = "./b.c" then some 2 else none

/-- A flow dependence with unknown distance and an output dependence. -/
def traits1 : Traits :=
  { example1 [.flow, .output] [.useAfterLoop, .directAccess, .explicitAccess] with
    flow := some (mkDep { may := true } [(none, none), (some 1, some 1)])
    output := some (mkDep {} []) }

theorem traits1_valid : Valid traits1 := by
  refine ⟨by rfl, ?_⟩
  intro x y
  cases x <;> cases y <;> decide

/-- A loop with two variables and a call. -/
def loop1 : PoolLoop :=
  ⟨[none, some ("a.c", 3, 4), some ("a.c", 7, 4)],
    [(.estimate (some ⟨1, 1, 5, "x"⟩), traits1), (.estimate (some ⟨1, 1, 8, "y"⟩), traits1),
     (.estimate (some ⟨2, 1, 8, "y"⟩), traits1),
     (.exec (some ⟨"a.c", 9, "f", ""⟩), traits1), (.exec (some ⟨"a.c", 10, "f", ""⟩), traits1)]⟩

theorem loop1_valid : loop1.Valid := by
  intro x hx
  simp only [loop1, List.mem_cons, List.not_mem_nil, or_false] at hx
  rcases hx with rfl | rfl | rfl | rfl | rfl <;> exact traits1_valid

/-- Results of import (`load_exact`): the first variable becomes private, the distance is known for the
second one, another variable with the same position in a different file is not changed, and the call
of a pure function accesses nothing. -/
example : ∃ q, load uid1 file1 [loop1] = some [q] ∧
    (q.pool.map fun x => (x.2.dep .priv, x.2.dep .flow, x.2.dep .output, x.2.dep .noAccess,
      x.2.unit .useAfterLoop)) =
      [(true, false, false, false, false), (false, true, false, false, true),
       (false, true, true, false, true), (false, false, false, true, true),
       (false, true, true, false, true)] ∧
    (q.pool.map fun x => x.2.flow.map Dep.dist) =
      [none, some [(some 2, some 2), (some 1, some 1)], some [(none, none), (some 1, some 1)], none,
       some [(none, none), (some 1, some 1)]] := by
  refine ⟨_, rfl, ?_, ?_⟩ <;> rfl

/-- Hypotheses of `load_idem` and `load_total`. -/
example : ∃ qs, load uid1 file1 [loop1] = some qs ∧ load uid1 file1 qs = some qs := by
  obtain ⟨qs, h⟩ : ∃ qs, load uid1 file1 [loop1] = some qs := ⟨_, rfl⟩
  refine ⟨qs, h, (load_idem ?_ h).2⟩
  simpa using loop1_valid

/-- Hypotheses of `export_exact_partial`: two loops with a common variable. -/
def path1 (v : VarLoc) : String := if v.file = 1 then "a.c" else "./b.c"

example : (write path1 [] [(("a.c", 3, 4), loop1.pool.take 2), (("a.c", 5, 4), loop1.pool.drop 1)]).loops.map
    (fun l => (l.line, l.flow, l.output)) =
    [(3, [(0, (none, none)), (1, (none, none))], [0, 1]),
     (5, [(1, (none, none)), (2, (none, none))], [1, 2])] := by
  rfl

example : List.Forall₂ (fun x l => (l.file, l.line, l.column) = x.1 ∧
      ∃ c, buildTraitCache uid1 (write path1 [] [(("a.c", 3, 4), loop1.pool)]) l = some c ∧
        (∀ v t, (Memory.estimate (some v), t) ∈ x.2 → t.dep .noAccess = false →
          c v = some (exported t)) ∧
        (∀ v, v ∉ keys x.2 → c v = none)) [(("a.c", 3, 4), loop1.pool)]
      (write path1 [] [(("a.c", 3, 4), loop1.pool)]).loops := by
  have hk : keys loop1.pool = [⟨1, 1, 5, "x"⟩, ⟨1, 1, 8, "y"⟩, ⟨2, 1, 8, "y"⟩] := by rfl
  apply export_exact_partial
  · intro x hx v hv
    simp only [List.mem_singleton] at hx
    subst hx
    rw [hk] at hv
    simp only [List.mem_cons, List.not_mem_nil, or_false] at hv
    rcases hv with rfl | rfl | rfl <;> exact ⟨by decide, by rfl⟩
  · intro x hx
    simp only [List.mem_singleton] at hx
    subst hx
    rw [hk]
    decide
  · intro x hx
    simp only [List.mem_singleton] at hx
    subst hx
    exact loop1_valid

/-- Hypotheses of `roundtrip_partial`. -/
example : traits1.fixed = false ∧ traits1.privatizable = false ∧
    (update (exported traits1) traits1).isSome = true := by
  refine ⟨by decide, by decide, by rfl⟩

example : ∃ t, Valid t ∧ t.fixed = false ∧ t.privatizable = true ∧ t.unit .useAfterLoop = true := by
  refine ⟨example1 [.firstPrivate, .lastPrivate] [.useAfterLoop], ⟨by rfl, ?_⟩, by decide, by decide,
    by decide⟩
  intro x y
  cases x <;> cases y <;> decide

/-- Hypotheses of `import_sound_partial` and `import_distance_partial`. -/
example : ∃ t', update { read := true, write := true, flow := some (some 1, some 3) } traits1 =
    some t' ∧ t'.dep .flow = true ∧ t'.dep .output = false := ⟨_, rfl, by decide, by decide⟩

end Tsar.Extern
