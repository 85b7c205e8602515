/-
Access to pragmas in an abstract syntax tree (C71):
lib/Frontend/Clang/Pragma.cpp:37-91.
-/
import Verif.Directives.PragmaProps

namespace Tsar.Directives

/-- A statement: a string literal, another statement without braces, a compound statement.
Implicit casts of string literals are not modelled (Pragma.cpp:45-48). -/
inductive Node
  | str (s : String)
  | other (ts : List Token)
  | compound (body : List Node)

/-- `traversePragmaName` (Pragma.cpp:38-56): the name of a compound statement and the rest of its
body. -/
def traverseName : Node → Option (String × List Node)
  | .compound (.str s :: rest) => some (s, rest)
  | _ => none

/-- The first component of `traversePragmaName`: an empty name on a failure. -/
def nodeName (S : Node) : String :=
  match traverseName S with
  | some p => p.1
  | none => ""

/-- A valid object of the class `Pragma`. -/
structure PragmaObj where
  ns : Nat
  dir : Nat
  clauses : List Node

/-- Result of a constructor `Pragma::Pragma` (Pragma.cpp:60-71). `invalid` means that
`operator bool` of the object is `false`. -/
inductive ReadResult
  | assertion
  | invalid
  | valid (p : PragmaObj)

/-- The constructor `Pragma::Pragma` (Pragma.cpp:60-71). -/
def readPragma (R : Records) (S : Node) : ReadResult :=
  match traverseName S with
  | none => .invalid
  | some (name, body) =>
    match getTsarDirectiveNamespace R name, body with
    | .found ns, D :: _ =>
      match getTsarDirective R ns (nodeName D), traverseName D with
      | .found dir, some (_, clauses) => .valid ⟨ns, dir, clauses⟩
      | .assertion, _ => .assertion
      | _, _ => .invalid
    | .assertion, _ => .assertion
    | _, _ => .invalid

/-- `findClause` (Pragma.cpp:79-91): statements which are added to the list of clauses; `none`
means that an assertion is violated. -/
def findClause (R : Records) (P : PragmaObj) (id : Nat) : Option (List Node) :=
  match getClauseParent R id with
  | none => none
  | some dir =>
    if P.dir ≠ dir then some []
    else some (P.clauses.filter fun C => getTsarClause R P.dir (nodeName C) == .found id)

/-! ### Specification -/

/-- How a sequence of statements is parsed (a contract of Clang): an expression statement is a
sequence of tokens without semicolons and braces, a string literal is a separate case. -/
inductive Ast : List Token → List Node → Prop
  | nil : Ast [] []
  | str {s rest ns} : Ast rest ns → Ast (mkString s :: mk .semi :: rest) (.str s :: ns)
  | other {ts rest ns} :
      (∀ tk ∈ ts, tk.kind ≠ .semi ∧ tk.kind ≠ .lBrace ∧ tk.kind ≠ .rBrace) →
      (∀ s, ts ≠ [mkString s]) → Ast rest ns → Ast (ts ++ mk .semi :: rest) (.other ts :: ns)
  | compound {body b rest ns} : Ast body b → Ast rest ns →
      Ast (mk .lBrace :: (body ++ mk .rBrace :: rest)) (.compound b :: ns)

/-- `Occurs R d line occ`: the line is a sequence of clauses of a directive `d`; `occ` is a list
of clauses: an identifier of a clause and statements which represent a body of the clause. -/
inductive Occurs (R : Records) (d : Nat) : List Token → List (Nat × List Node) → Prop
  | nil : Occurs R d [] []
  | cons {i : Nat} {c : ClauseRec} {tk w out b rest occ} : R.clauses[i]? = some c →
      dirEnum R c.parent = d → tokName tk = some c.name → Lang .seq c.exprs w out → Ast out b →
      Occurs R d rest occ → Occurs R d (tk :: (w ++ rest)) ((i + 1, b) :: occ)

/-- A statement which represents a clause. -/
def clauseNode (R : Records) (o : Nat × List Node) : Node :=
  .compound (.str ((getClauseName R o.1).getD "") :: o.2)

/-! ### Proofs -/

theorem stmts_ast {ts : List Token} (h : Stmts ts) : ∃ ns, Ast ts ns := by
  induction h with
  | nil => exact ⟨_, .nil⟩
  | @simple ts rest h _ ih =>
    obtain ⟨ns, hn⟩ := ih
    by_cases hs : ∃ s, ts = [mkString s]
    · obtain ⟨s, rfl⟩ := hs
      exact ⟨_, .str hn⟩
    · exact ⟨_, .other h (fun s he => hs ⟨s, he⟩) hn⟩
  | compound _ _ ih1 ih2 =>
    obtain ⟨b, hb⟩ := ih1
    obtain ⟨ns, hn⟩ := ih2
    exact ⟨_, .compound hb hn⟩

/-- What may follow a sequence of statements. -/
def Closed (r : List Token) : Prop := r = [] ∨ ∃ r', r = mk .rBrace :: r'

theorem other_split {ts ts' r r' : List Token}
    (h : ∀ tk ∈ ts, tk.kind ≠ .semi) (h' : ∀ tk ∈ ts', tk.kind ≠ .semi)
    (he : ts ++ mk .semi :: r = ts' ++ mk .semi :: r') : ts = ts' ∧ r = r' := by
  induction ts generalizing ts' with
  | nil =>
    cases ts' with
    | nil => simpa using he
    | cons x xs =>
      simp only [List.nil_append, List.cons_append, List.cons.injEq] at he
      exact absurd (by rw [← he.1]; rfl) (h' x (List.mem_cons_self ..))
  | cons y ys ih =>
    cases ts' with
    | nil =>
      simp only [List.nil_append, List.cons_append, List.cons.injEq] at he
      exact absurd (by rw [he.1]; rfl) (h y (List.mem_cons_self ..))
    | cons x xs =>
      simp only [List.cons_append, List.cons.injEq] at he
      obtain ⟨rfl, he⟩ := he
      obtain ⟨rfl, h2⟩ := ih (fun tk hm => h tk (List.mem_cons_of_mem _ hm))
        (fun tk hm => h' tk (List.mem_cons_of_mem _ hm)) he
      exact ⟨rfl, h2⟩

/-- The first token of a sequence of statements is not a closing brace. -/
theorem ast_not_closed {a : List Token} {x : List Node} (h : Ast a x) (hx : x ≠ []) (r : List Token) :
    ¬Closed (a ++ r) := by
  cases h with
  | nil => exact absurd rfl hx
  | str _ => rintro (h | ⟨_, h⟩) <;> simp [mkString, mk] at h
  | @other ts rest ns h1 _ _ =>
    cases ts with
    | nil => rintro (h | ⟨_, h⟩) <;> simp [mk] at h
    | cons y ys =>
      rintro (h | ⟨_, h⟩)
      · simp at h
      · simp only [List.cons_append, List.cons.injEq] at h
        exact (h1 y (List.mem_cons_self ..)).2.2 (by rw [h.1]; rfl)
  | compound _ _ => rintro (h | ⟨_, h⟩) <;> simp [mk] at h

theorem ast_unique_aux {a : List Token} {x : List Node} (h : Ast a x) :
    ∀ {a' x' r r'}, Ast a' x' → Closed r → Closed r' → a ++ r = a' ++ r' →
      a = a' ∧ x = x' ∧ r = r' := by
  induction h with
  | nil =>
    intro a' x' r r' h' hr hr' he
    by_cases hx : x' = []
    · subst hx
      cases h'
      exact ⟨rfl, rfl, by simpa using he⟩
    · have := ast_not_closed h' hx r'
      rw [← he] at this
      exact absurd hr this
  | @str s rest ns _ ih =>
    intro a' x' r r' h' hr hr' he
    cases h' with
    | nil =>
      exfalso
      rcases hr' with rfl | ⟨_, rfl⟩ <;> simp [mkString, mk] at he
    | @str s' rest' ns' h2 =>
      simp only [List.cons_append, List.cons.injEq] at he
      obtain ⟨h3, rfl, h5⟩ := ih h2 hr hr' he.2.2
      have : s = s' := by simpa [mkString] using he.1
      subst this
      exact ⟨by rw [h3], rfl, h5⟩
    | @other ts rest' ns' h1 hns h2 =>
      exfalso
      rw [List.append_assoc] at he
      obtain ⟨h3, _⟩ := other_split (ts := [mkString s]) (r := rest ++ r) (by simp [mkString])
        (fun tk hm => (h1 tk hm).1) he
      exact hns s h3.symm
    | compound _ _ => exfalso; simp [mkString, mk] at he
  | @other ts rest ns h1 hns _ ih =>
    intro a' x' r r' h' hr hr' he
    have hself : ¬Closed ((ts ++ mk .semi :: rest) ++ r) :=
      ast_not_closed (.other h1 hns ‹_›) (by simp) r
    cases h' with
    | nil =>
      rw [he] at hself
      exact absurd hr' hself
    | @str s' rest' ns' h2 =>
      exfalso
      rw [List.append_assoc] at he
      obtain ⟨h3, _⟩ := other_split (ts' := [mkString s']) (r' := rest' ++ r')
        (fun tk hm => (h1 tk hm).1) (by simp [mkString]) he
      exact hns s' h3
    | @other ts' rest' ns' h1' hns' h2 =>
      rw [List.append_assoc, List.append_assoc] at he
      obtain ⟨rfl, h4⟩ := other_split (fun tk hm => (h1 tk hm).1) (fun tk hm => (h1' tk hm).1) he
      obtain ⟨h3, rfl, h5⟩ := ih h2 hr hr' h4
      exact ⟨by rw [h3], rfl, h5⟩
    | @compound body' b' rest' ns' h2 h3 =>
      exfalso
      cases ts with
      | nil => simp [mk] at he
      | cons y ys =>
        simp only [List.cons_append, List.cons.injEq] at he
        exact (h1 y (List.mem_cons_self ..)).2.1 (by rw [he.1]; rfl)
  | @compound body b rest ns _ _ ih1 ih2 =>
    intro a' x' r r' h' hr hr' he
    cases h' with
    | nil =>
      exfalso
      rcases hr' with rfl | ⟨_, rfl⟩ <;> simp [mk] at he
    | str _ => exfalso; simp [mkString, mk] at he
    | @other ts' rest' ns' h1' hns' h2 =>
      exfalso
      cases ts' with
      | nil => simp [mk] at he
      | cons y ys =>
        simp only [List.cons_append, List.cons.injEq] at he
        exact (h1' y (List.mem_cons_self ..)).2.1 (by rw [← he.1]; rfl)
    | @compound body' b' rest' ns' h2 h3 =>
      simp only [List.cons_append, List.cons.injEq, List.append_assoc, true_and] at he
      obtain ⟨rfl, rfl, he⟩ := ih1 h2 (.inr ⟨_, rfl⟩) (.inr ⟨_, rfl⟩) he
      simp only [List.cons.injEq, true_and] at he
      obtain ⟨rfl, rfl, h5⟩ := ih2 h3 hr hr' he
      exact ⟨rfl, rfl, h5⟩

/-- A syntax tree is determined by a sequence of tokens. -/
theorem ast_unique {a : List Token} {x x' : List Node} (h : Ast a x) (h' : Ast a x') : x = x' :=
  (ast_unique_aux h h' (.inl rfl) (.inl rfl) rfl).2.1

theorem ast_group {n : String} {out rest : List Token} {b ns : List Node} (h : Ast out b)
    (hr : Ast rest ns) : Ast (group n out ++ rest) (.compound (.str n :: b) :: ns) := by
  have := Ast.compound (Ast.str (s := n) h) hr
  simpa [group] using this

theorem clauses_occurs {R : Records} {d : Nat} {line out : List Token} (h : Clauses R d line out) :
    ∃ occ, Occurs R d line occ ∧ Ast out (occ.map (clauseNode R)) := by
  induction h with
  | nil => exact ⟨[], .nil, .nil⟩
  | @cons i c tk w out rest out' hi hd hn hl _ ih =>
    obtain ⟨occ, h1, h2⟩ := ih
    obtain ⟨b, hb⟩ := stmts_ast (lang_stmts hl)
    refine ⟨(i + 1, b) :: occ, .cons hi hd hn hl hb h1, ?_⟩
    simp only [List.map_cons, clauseNode, (clause_at hi).1, Option.getD_some]
    exact ast_group hb h2

/-- Names of clauses are known. -/
theorem occurs_names {R : Records} {d : Nat} {line : List Token} {occ : List (Nat × List Node)}
    (h : Occurs R d line occ) : ∀ o ∈ occ, ∃ (i : Nat) (c : ClauseRec), o.1 = i + 1 ∧
      R.clauses[i]? = some c ∧ dirEnum R c.parent = d ∧ ∃ tk ∈ line, tokName tk = some c.name := by
  induction h with
  | nil => simp
  | @cons i c tk w out b rest occ hi hd hn hl ha _ ih =>
    intro o ho
    rcases List.mem_cons.1 ho with rfl | ho
    · exact ⟨i, c, rfl, hi, hd, tk, List.mem_cons_self .., hn⟩
    · obtain ⟨i', c', h1, h2, h3, tk', h4, h5⟩ := ih o ho
      exact ⟨i', c', h1, h2, h3, tk', by simp [h4], h5⟩

/-- Names which are not reserved. -/
structure NotReserved (R : Records) : Prop where
  ns : ∀ n ∈ R.namespaces, n.2 ≠ "not_namespace"
  dir : ∀ d ∈ R.directives, d.name ≠ "not_directive"
  clause : ∀ c ∈ R.clauses, c.name ≠ "not_clause"

/-- Access to a pragma in a syntax tree for arbitrary records. -/
theorem pragma_ast {R : Records} (hR : WellNamed R) (hN : NotReserved R) {ns : Nat}
    {first : Token} {line repl : List Token} (h : PragmaText R ns first line repl)
    {T : List Node} (hT : Ast repl T) :
    ∃ (i : Nat) (d : DirRec) (occ : List (Nat × List Node)) (S : Node),
      R.directives[i]? = some d ∧ nsEnum R d.parent = ns ∧ tokName first = some d.name ∧
      Occurs R (i + 1) line occ ∧ T = [S] ∧
      readPragma R S = .valid ⟨ns, i + 1, occ.map (clauseNode R)⟩ ∧
      ∀ id d', getClauseParent R id = some d' →
        findClause R ⟨ns, i + 1, occ.map (clauseNode R)⟩ id =
          some ((occ.filter (·.1 = id)).map (clauseNode R)) := by
  obtain ⟨i, d, nsname, out, hi, hd, hns, hn, hc, rfl⟩ := h
  obtain ⟨occ, ho, ha⟩ := clauses_occurs hc
  have htree : Ast (group nsname (group d.name out))
      [.compound [.str nsname, .compound (.str d.name :: occ.map (clauseNode R))]] := by
    have h1 := ast_group (n := d.name) ha .nil
    have h2 := ast_group (n := nsname) h1 .nil
    simpa using h2
  obtain rfl := ast_unique hT htree
  have hat := directive_at hi
  rw [hd] at hat
  have hnsname : nsname ≠ "not_namespace" := by
    obtain ⟨h0, h⟩ := (getNsName_iff R ns nsname).1 hns
    obtain ⟨k, rfl⟩ : ∃ k, ns = k + 1 := ⟨ns - 1, by omega⟩
    simp only [nsNames, List.getElem?_cons_succ] at h
    obtain ⟨x, hx, rfl⟩ := List.mem_map.1 (List.mem_of_getElem? h)
    exact hN.ns x hx
  have h1 : getTsarDirectiveNamespace R nsname = .found ns :=
    ((getTsarDirectiveNamespace_partial R hR nsname hnsname ns).1).2 hns
  have h2 : getTsarDirective R ns d.name = .found (i + 1) :=
    ((getTsarDirective_partial R hR ns d.name (hN.dir d (List.mem_of_getElem? hi)) (i + 1)).1).2
      ⟨hat.1, hat.2.1⟩
  refine ⟨i, d, occ, _, hi, hd, hn, ho, rfl, ?_, ?_⟩
  · simp [readPragma, traverseName, nodeName, h1, h2]
  · intro id d' hd'
    simp only [findClause, hd']
    have hocc : ∀ o ∈ occ, getTsarClause R (i + 1) (nodeName (clauseNode R o)) = .found o.1 := by
      intro o hm
      obtain ⟨j, c, hj, hc', hdc, -⟩ := occurs_names ho o hm
      have hat' := clause_at hc'
      rw [hdc, ← hj] at hat'
      simp only [nodeName, clauseNode, traverseName, hat'.1, Option.getD_some]
      exact ((getTsarClause_partial R hR (i + 1) c.name
        (hN.clause c (List.mem_of_getElem? hc')) o.1).1).2 hat'
    split
    · rename_i hne
      congr 1
      symm
      rw [List.map_eq_nil_iff, List.filter_eq_nil_iff]
      intro o hm hid
      simp only [decide_eq_true_eq] at hid
      obtain ⟨j, c, hj, hc', hdc, -⟩ := occurs_names ho o hm
      have := (clause_at hc').2
      rw [← hj, hid, hd', hdc] at this
      exact hne (Option.some.inj this).symm
    · congr 1
      rw [List.filter_map]
      congr 1
      refine List.filter_congr fun o hm => ?_
      simp only [Function.comp, hocc o hm]
      by_cases h : o.1 = id
      · simp [h]
      · have : (Lookup.found o.1 == Lookup.found id) = false := by
          rw [beq_eq_false_iff_ne]
          exact fun e => h (Lookup.found.inj e)
        rw [this]; simp [h]

theorem tsar_notReserved : NotReserved tsar :=
  ⟨by decide +kernel, by decide +kernel, by decide +kernel⟩

/-- **C71**. A pragma which has been replaced without diagnostics is recognized in a syntax tree
of its replacement: the object `Pragma` is valid, it has the same namespace and directive, its
clauses are clauses of the line in the same order, and `findClause` for each clause of TSAR finds
all occurrences of this clause in the line and nothing else. -/
theorem tsar_pragma_ast {first : Token} {line repl : List Token}
    (h : PragmaText tsar (nsEnum tsar "Spf") first line repl) {T : List Node} (hT : Ast repl T) :
    ∃ (i : Nat) (d : DirRec) (occ : List (Nat × List Node)) (S : Node),
      tsar.directives[i]? = some d ∧ d.parent = "Spf" ∧ tokName first = some d.name ∧
      Occurs tsar (i + 1) line occ ∧ T = [S] ∧
      readPragma tsar S = .valid ⟨nsEnum tsar "Spf", i + 1, occ.map (clauseNode tsar)⟩ ∧
      ∀ id, 0 < id → id ≤ tsar.clauses.length →
        findClause tsar ⟨nsEnum tsar "Spf", i + 1, occ.map (clauseNode tsar)⟩ id =
          some ((occ.filter (·.1 = id)).map (clauseNode tsar)) := by
  obtain ⟨i, d, occ, S, h1, h2, h3, h4, h5, h6, h7⟩ := pragma_ast tsar_wellNamed tsar_notReserved h hT
  refine ⟨i, d, occ, S, h1, ?_, h3, h4, h5, h6, fun id h0 hl => ?_⟩
  · have : ∀ d ∈ tsar.directives, nsEnum tsar d.parent = nsEnum tsar "Spf" → d.parent = "Spf" := by
      decide +kernel
    exact this d (List.mem_of_getElem? h1) h2
  · obtain ⟨j, rfl⟩ : ∃ k, id = k + 1 := ⟨id - 1, by omega⟩
    exact h7 (j + 1) _ (clause_at (List.getElem?_eq_getElem (by omega : j < tsar.clauses.length))).2

/-- There is a syntax tree for each replacement. -/
theorem pragma_has_ast {R : Records} {ns : Nat} {first : Token} {line repl : List Token}
    (h : PragmaText R ns first line repl) : ∃ T, Ast repl T := stmts_ast (pragma_stmts h)

end Tsar.Directives
