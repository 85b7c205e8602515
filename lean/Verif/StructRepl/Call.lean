import Verif.StructRepl.Props

/-!
# Parameters of a new function and arguments of its calls: properties C135, C136
-/

namespace Tsar.StructRepl

/-! ### Parameters -/

/-- Tokens of a list of parameters. A new parameter is a pointer if `ptr` is set. -/
inductive Tok
  | param (v : Var)
  | new (v : Var) (f : Field) (ptr : Bool)
  | comma
  deriving DecidableEq, Repr

/-- `buildParameterType()` (StructureReplacement.cpp:1817-1853): a pointer or a type of a member. A member is not
an array. -/
def newParam (v : Var) (r : Repl) : Tok := .new v r.field (r.arr || r.asg)

/-- `buildMemberDeclaration()` (StructureReplacement.cpp:1855-1912): declarations are separated with commas. -/
def declare (v : Var) : List Repl → List Tok
  | [] => []
  | r :: rs => (if rs.isEmpty then [newParam v r] else newParam v r :: .comma :: declare v rs)

/-- Update of a list of parameters in `insertNewFunction()` (StructureReplacement.cpp:2015-2065). Parameters are visited
from the last one to the first one. The second component is `TheLastParam`. A comma follows each parameter except the
last one. -/
def edit (c : Cands) : List Var → List Tok × Bool
  | [] => ([], true)
  | v :: vs =>
    let r := edit c vs
    let hasComma := !vs.isEmpty
    match c v with
    | none => (.param v :: ((if hasComma && !r.2 then [.comma] else []) ++ r.1), false)
    | some [] => (r.1, r.2)
    | some rs => (declare v rs ++ ((if hasComma && !r.2 then [.comma] else []) ++ r.1), false)

/-- Implicit metadata (StructureReplacement.cpp:2110-2135). -/
def metadata (c : Cands) : Nat → List Var → List PMeta
  | _, [] => []
  | n, v :: vs =>
    match c v with
    | none => ⟨n, none, .value⟩ :: metadata c (n + 1) vs
    | some rs => rs.map (fun r => ⟨n, some r.field, if r.arr then .array else if r.asg then .pointer else .value⟩) ++
        metadata c (n + 1) vs

/-- Specification: a list of parameters which are separated with commas. -/
def separated : List Tok → List Tok
  | [] => []
  | [t] => [t]
  | t :: ts => t :: .comma :: separated ts

/-- Specification: parameters of a new function. -/
def formals (c : Cands) (vs : List Var) : List Tok :=
  vs.flatMap (fun v => match c v with
    | none => [.param v]
    | some rs => rs.map (fun r => .new v r.field (r.arr || r.asg)))

theorem declare_eq (v : Var) : ∀ rs, declare v rs = separated (rs.map (newParam v))
  | [] => rfl
  | [r] => by simp [declare, separated]
  | r :: s :: rs => by
    have := declare_eq v (s :: rs)
    simp only [declare, List.isEmpty_cons, Bool.false_eq_true, if_false, List.map_cons, separated] at this ⊢
    rw [this]

theorem separated_append : ∀ (a b : List Tok), a ≠ [] →
    separated (a ++ b) = separated a ++ (if b = [] then [] else .comma :: separated b)
  | [], _, h => absurd rfl h
  | [x], [], _ => by simp [separated]
  | [x], y :: ys, _ => by simp [separated]
  | x :: y :: xs, b, _ => by
    have := separated_append (y :: xs) b (by simp)
    simp only [List.cons_append, separated] at this ⊢
    rw [this]

theorem edit_last (c : Cands) : ∀ vs, (edit c vs).2 = decide (formals c vs = [])
  | [] => rfl
  | v :: vs => by
    have ih := edit_last c vs
    simp only [edit, formals, List.flatMap_cons]
    cases hc : c v with
    | none => simp
    | some rs =>
      cases rs with
      | nil => simpa [formals] using ih
      | cons r rs => simp

/-- A list of parameters of a new function is well-formed: unused structures are removed, members are declared instead of
other replaced structures, remaining parameters are not changed, and there are no redundant or missing commas. -/
theorem edit_formals (c : Cands) : ∀ vs, (edit c vs).1 = separated (formals c vs)
  | [] => rfl
  | v :: vs => by
    have ih := edit_formals c vs
    have hl := edit_last c vs
    have hne : ∀ a : List Tok, a ≠ [] → separated (a ++ formals c vs) =
        separated a ++ ((if !vs.isEmpty && !(edit c vs).2 then [.comma] else []) ++ (edit c vs).1) := by
      intro a ha
      rw [separated_append a _ ha, ih, hl]
      by_cases hf : formals c vs = []
      · simp [hf, separated]
      · have : vs ≠ [] := by rintro rfl; exact hf rfl
        have hv : vs.isEmpty = false := by cases vs <;> simp_all
        simp [hf, hv]
    have hfc : formals c (v :: vs) = (match c v with
      | none => [.param v]
      | some rs => rs.map (fun r => .new v r.field (r.arr || r.asg))) ++ formals c vs := rfl
    rw [hfc]
    simp only [edit]
    cases hc : c v with
    | none => exact (hne [.param v] (by simp)).symm
    | some rs =>
      cases rs with
      | nil => simpa using ih
      | cons r rs =>
        have := hne ((r :: rs).map (newParam v)) (by simp)
        rw [← declare_eq] at this
        exact this.symm

/-- What metadata say about a parameter of a new function: which parameter and which member of it is replaced. The kind
is `array` if elements are accessed through the member, it is `value` if the new parameter is not a pointer. -/
def describes (c : Cands) (vs : List Var) (p : PMeta) : Tok → Prop
  | .param v => vs[p.target]? = some v ∧ p.member = none ∧ p.kind = .value
  | .new v f ptr => vs[p.target]? = some v ∧ p.member = some f ∧ (p.kind = .value ↔ ptr = false) ∧
      ∃ rs, c v = some rs ∧ ∃ r ∈ rs, r.field = f ∧ (p.kind = .array ↔ r.arr = true)
  | .comma => False

/-- Implicit metadata describe parameters of a new function in the same order. -/
theorem metadata_formals (c : Cands) (vs : List Var) :
    List.Forall₂ (describes c vs) (metadata c 0 vs) (formals c vs) := by
  have key : ∀ (us pre : List Var), List.Forall₂ (describes c (pre ++ us)) (metadata c pre.length us) (formals c us) := by
    intro us
    induction us with
    | nil => intro pre; exact .nil
    | cons v us ih =>
      intro pre
      have ih := ih (pre ++ [v])
      simp only [List.length_append, List.length_singleton, List.append_assoc, List.singleton_append] at ih
      have hfc : formals c (v :: us) = (match c v with
        | none => [.param v]
        | some rs => rs.map (fun r => .new v r.field (r.arr || r.asg))) ++ formals c us := rfl
      rw [hfc]
      simp only [metadata]
      cases hc : c v with
      | none => exact .cons ⟨by simp, rfl, rfl⟩ ih
      | some rs =>
        simp only
        have hall : ∀ r ∈ rs, r ∈ rs := fun _ => id
        clear hfc
        generalize hq : rs = qs at hall ⊢
        rw [hq] at hc
        have hmem : ∀ r ∈ qs, r ∈ rs := fun r hr => hq ▸ hr
        rw [← hq] at hc
        clear hall hq
        induction qs with
        | nil => exact ih
        | cons r qs ihr =>
          refine .cons ⟨by simp, rfl, ?_, rs, hc, r, hmem r List.mem_cons_self, rfl, ?_⟩
            (ihr fun x hx => hmem x (List.mem_cons_of_mem _ hx))
          · cases ha : r.arr <;> cases hs : r.asg <;> simp [ha, hs]
          · cases ha : r.arr <;> cases hs : r.asg <;> simp [ha, hs]
  exact key vs []

example : (edit (fun v => if v = 1 then some [] else if v = 2 then some [⟨5, true, false⟩, ⟨6, false, false⟩]
    else if v = 4 then some [] else none) [0, 1, 2, 3, 4]).1 =
    [.param 0, .comma, .new 2 5 true, .comma, .new 2 6 false, .comma, .param 3] := by decide

/-! ### Text of metadata -/

/-- Tokens of a description of a replaced parameter: an optional `[]`, a member and an identifier. -/
structure PragmaItem where
  array : Bool
  field : Field
  deriving DecidableEq, Repr

/-- `addPragmaMetadata()` (StructureReplacement.cpp:1060-1085): a flag of the second member is used for all members
except the first one. -/
def pragma : List Repl → List PragmaItem
  | [] => []
  | r :: rs => ⟨r.arr, r.field⟩ :: rs.map (fun s => ⟨(rs.head?.map Repl.arr).getD false, s.field⟩)

/-- Members are listed in the order of parameters. -/
theorem pragma_fields (rs : List Repl) : (pragma rs).map PragmaItem.field = rs.map Repl.field := by
  cases rs <;> simp [pragma, Function.comp_def]

/-- Arrays are described correctly if at most two members are replaced, or there are no arrays except the first member,
or all other members are arrays. -/
theorem pragma_arrays_partial (rs : List Repl) (h : ∀ s ∈ rs.tail, ∀ s' ∈ rs.tail, s.arr = s'.arr) :
    pragma rs = rs.map (fun r => ⟨r.arr, r.field⟩) := by
  cases rs with
  | nil => rfl
  | cons r rs =>
    simp only [pragma, List.map_cons, List.cons.injEq, true_and]
    cases rs with
    | nil => rfl
    | cons s rs =>
      apply List.map_congr_left
      intro x hx
      simp [h s (by simp) x (by simpa using hx)]

example : pragma [⟨5, false, true⟩, ⟨6, true, false⟩, ⟨7, false, false⟩] = [⟨true, 5⟩, ⟨false, 6⟩, ⟨false, 7⟩] := by
  decide

/-- In general a description of a new function is wrong: the third member is an array. -/
theorem pragma_arrays_fails : ∃ rs : List Repl, pragma rs ≠ rs.map (fun r => ⟨r.arr, r.field⟩) :=
  ⟨[⟨5, false, false⟩, ⟨6, false, false⟩, ⟨7, false, true⟩], by decide⟩

/-! ### Arguments -/

/-- An argument of a new call has the expected value: the value of a member of a structure, or a pointer to it.
The original argument is a pointer to the structure at `l`. If a pointer is expected and the argument is replaced then
a pointer to the member is available (see `fill_closed`), or the structure is a local variable. -/
theorem newArg_value_partial (o : Ops) (i : Info) (t : Types) (c : Cands) (env : Env) (m : Mem)
    (hb : Bound i t c env m) (p : PMeta) (f : Field) (hp : p.member = some f) (a a' e : Expr) (l : HLoc)
    (hr : ∀ v r, flagOf c v f = some r → i.isRec v = true → r.asg = false ∧ r.arr = false ∧ env.off f = f)
    (ha : inCands c a = none → (sem o env m a').2 = some (.ptr l))
    (hc : ∀ v, inCands c a = some v → chain t.depth a = some (v, false, 0) ∧
      chase m (env.var v) (t.depth v) = some l ∧
      (p.kind ≠ .value → ∀ r, flagOf c v f = some r → r.asg = true ∨ r.arr = true ∨ i.isRec v = true))
    (hk : p.kind = .array → ∀ v, inCands c a = some v → i.isRec v = false)
    (he : newArg c p a a' = some e) :
    (sem o env m e).2 = some (if p.kind = .value then m (env.at l f) else .ptr (env.at l f)) := by
  unfold newArg at he
  cases hin : inCands c a with
  | none =>
    have ha := ha hin
    simp only [hin, hp] at he
    split_ifs at he with h1 h2
    · simp only [Option.some.injEq] at he
      subst he
      simp [sem, ha, Val.loc, Loc.addr, h2]
    · simp only [Option.some.injEq] at he
      subst he
      have : p.kind = .value := by cases hk' : p.kind <;> simp_all
      simp [sem, ha, Val.loc, Env.read, this]
  | some v =>
    obtain ⟨hch, hl, hflag⟩ := hc v hin
    simp only [hin, hp, Option.bind_some] at he
    cases hfl : flagOf c v f with
    | none => simp [hfl] at he
    | some r =>
      have hrf : r.field = f := by
        simp only [flagOf] at hfl
        obtain ⟨ls, _, h2⟩ := Option.bind_eq_some_iff.mp hfl
        simpa using List.find?_some h2
      simp only [hfl, Option.some.injEq, hrf] at he
      obtain ⟨l', hl', hpar⟩ := hb v f r hfl
      rw [hl, Option.some.injEq] at hl'
      subst hl'
      cases hrec : i.isRec v with
      | true =>
        obtain ⟨e1, e2, e3⟩ := hr v r hfl hrec
        simp only [hrec, if_true] at hpar
        simp only [e1, e2, Bool.or_self, Bool.false_eq_true, if_false] at he
        split_ifs at he with h1
        · subst he
          simp [sem, hpar, Loc.addr, h1, Env.at, e3]
        · subst he
          have : p.kind = .value := by
            cases hk' : p.kind with
            | value => rfl
            | pointer => exact absurd hk' h1
            | array => rw [hk hk' v hin] at hrec; cases hrec
          simp [sem, hpar, Env.read, this, Env.at, e3]
      | false =>
        simp only [hrec, Bool.false_eq_true, if_false] at hpar
        by_cases hptr : (r.asg || r.arr) = true
        · simp only [hptr, if_true] at hpar he
          split_ifs at he with h1
          · subst he
            have : p.kind ≠ .value := by rintro h; simp [h] at h1
            simp [sem, hpar, Env.read, this]
          · subst he
            have : p.kind = .value := by cases hk' : p.kind <;> simp_all
            simp [sem, hpar, Env.read, Val.loc, this]
        · have hn : p.kind = .value := by
            by_contra hh
            rcases hflag hh r hfl with h | h | h
            · simp [h] at hptr
            · simp [h] at hptr
            · rw [hrec] at h; cases h
          simp only [hptr, Bool.false_eq_true, if_false] at hpar he
          simp only [hn, reduceCtorEq, if_false] at he
          subst he
          simp [sem, hpar, Env.read, hn]

/-- `g(s)`: a pointer to a member 5 and the value of a member 6. -/
example :
    let env : Env := ⟨exVar, fun _ f => if f = 5 then .value (.ptr ⟨10, [5]⟩) else .value (.int 7), id⟩
    let c : Cands := fun v => if v = 0 then some [⟨5, true, false⟩, ⟨6, false, false⟩] else none
    let a : Expr := .lv2rv (.ref 0)
    (newArg c ⟨0, some 5, .pointer⟩ a a).map (fun e => (sem exOps env exMem e).2) = some (some (.ptr ⟨10, [5]⟩)) ∧
    (newArg c ⟨0, some 5, .value⟩ a a).map (fun e => (sem exOps env exMem e).2) = some (some (.int 7)) ∧
    (newArg c ⟨0, some 6, .value⟩ a a).map (fun e => (sem exOps env exMem e).2) = some (some (.int 7)) ∧
    inCands c a = some 0 ∧ chain exTypes.depth a = some (0, false, 0) := by decide

/-- If replacement of a call is requested explicitly then a member which is passed by pointer is not marked as
a member which may be changed, so a pointer to a copy is passed. -/
theorem newArg_value_fails : ∃ (i : Info) (req : Nat → Option Req) (body : Expr) (c : Cands) (p : PMeta) (a e : Expr)
    (env : Env) (m : Mem) (l : HLoc),
    req 4 = some (.explicit [p]) ∧ p.kind = .pointer ∧ p.member = some 5 ∧ body = .call 4 (.arg a .nil) ∧
    (sem exOps env m a).2 = some (.ptr l) ∧ Bound i exTypes (sanitize i req body c).2 env m ∧
    newArg (sanitize i req body c).2 p a a = some e ∧ (sem exOps env m e).2 ≠ some (.ptr (env.at l 5)) := by
  refine ⟨exInfo, fun k => if k = 4 then some (.explicit [⟨0, some 5, .pointer⟩]) else none,
    .call 4 (.arg (.lv2rv (.ref 0)) .nil), exCands, ⟨0, some 5, .pointer⟩, .lv2rv (.ref 0), .addr (.new 0 5),
    ⟨exVar, fun _ _ => .value (.int 7), id⟩, exMem, ⟨10, []⟩, rfl, rfl, rfl, rfl, by decide, ?_, by decide, by decide⟩
  intro v f r h
  by_cases hv : v = 0
  · subst hv
    have hc : ∀ g, flagOf (sanitize exInfo (fun k => if k = 4 then some (.explicit [⟨0, some 5, .pointer⟩]) else none)
      (.call 4 (.arg (.lv2rv (.ref 0)) .nil)) exCands).2 0 g = [(⟨5, false, false⟩ : Repl)].find? (fun r => r.field = g) :=
      fun g => rfl
    rw [hc] at h
    by_cases h5 : 5 = f
    · subst h5
      have : r = ⟨5, false, false⟩ := by simpa using h.symm
      subst this
      exact ⟨⟨10, []⟩, by decide, by decide⟩
    · simp [h5] at h
  · have hle := (spec_trav (fun k => if k = 4 then some (.explicit [⟨0, some 5, .pointer⟩]) else none) noMeta
      (fun v => (exCands v).isSome) (.call 4 (.arg (.lv2rv (.ref 0)) .nil)) none (start exCands)
      (by simp [tame]) (fun _ h => h) rfl (.inl rfl)).le.trans (le_fix exInfo _)
    have hn := none_le hle (x := v) (by simp [start, exCands, hv])
    obtain ⟨ls, h1, _⟩ := Option.bind_eq_some_iff.mp h
    have h1' := h1
    simp only [sanitize] at h1'
    rw [hn] at h1'
    cases h1'

end Tsar.StructRepl
