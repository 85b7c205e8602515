import Mathlib.Data.List.Perm.Subperm
import Mathlib.Data.List.Nodup
/-!
# New identifiers

`ClangInliner::addSuffix` (Inline.cpp:1235-1240) and `addSuffix` of the replacement of structures
(StructureReplacement.cpp:1338-1343): a name is followed with the first number which makes a new identifier.
-/
namespace Tsar.Inline

/-- `Prefix + Twine(Count)`. -/
def numbered (p : List Char) (n : Nat) : List Char := p ++ Nat.toDigits 10 n

/-- The loop which increments `Count`. A derivation is a terminating execution, `n` is the current value of
the counter, `c` is its final value. The counter is not bounded. -/
inductive Count (ids : List (List Char)) (p : List Char) : Nat → Nat → Prop
  | done {n} : numbered p n ∉ ids → Count ids p n n
  | next {n c} : numbered p n ∈ ids → Count ids p (n + 1) c → Count ids p n c

/-- A sequence of calls of `addSuffix`: a new name is inserted to the set of identifiers each time. -/
inductive Names : List (List Char) → List (List Char) → List (List Char) → List (List Char) → Prop
  | nil {ids} : Names ids [] [] ids
  | cons {ids p ps c out ids'} : Count ids p 0 c → Names (numbered p c :: ids) ps out ids' →
      Names ids (p :: ps) (numbered p c :: out) ids'

theorem numbered_inj {p : List Char} {n m : Nat} (h : numbered p n = numbered p m) : n = m := by
  have h := List.append_cancel_left h
  have := congrArg (fun l => Nat.ofDigitChars 10 l 0) h
  simpa [Nat.ofDigitChars_toDigits (b := 10) (by decide) (by decide)] using this

theorem Count.spec {ids p n c} (h : Count ids p n c) :
    n ≤ c ∧ numbered p c ∉ ids ∧ ∀ k, n ≤ k → k < c → numbered p k ∈ ids := by
  induction h with
  | done h => exact ⟨Nat.le_refl _, h, fun k h₁ h₂ => absurd h₁ (Nat.not_le_of_lt h₂)⟩
  | next h _ ih =>
    refine ⟨Nat.le_of_succ_le ih.1, ih.2.1, fun k h₁ h₂ => ?_⟩
    rcases Nat.eq_or_lt_of_le h₁ with rfl | h₁
    · exact h
    · exact ih.2.2 k h₁ h₂

theorem Count.exists {ids p} {c : Nat} (h : numbered p c ∉ ids) : ∀ n, n ≤ c → ∃ c, Count ids p n c := by
  intro n hn
  induction hd : c - n generalizing n with
  | zero =>
    have : n = c := by omega
    subst this
    exact ⟨_, .done h⟩
  | succ d ih =>
    by_cases k : numbered p n ∈ ids
    · obtain ⟨c, hc⟩ := ih (n + 1) (by omega) (by omega)
      exact ⟨c, .next k hc⟩
    · exact ⟨_, .done k⟩

/-- **C107.** The search for a new identifier terminates, it takes at most one step more than there are
identifiers, and the result is a new identifier with the given prefix. -/
theorem suffix_new (ids : List (List Char)) (p : List Char) :
    (∃ c, Count ids p 0 c) ∧ ∀ c, Count ids p 0 c → c ≤ ids.length ∧ numbered p c ∉ ids := by
  have bound : ∀ c, (∀ k < c, numbered p k ∈ ids) → c ≤ ids.length := by
    intro c h
    have nd : ((List.range c).map (numbered p)).Nodup :=
      List.Nodup.map (fun _ _ => numbered_inj) List.nodup_range
    have sub : (List.range c).map (numbered p) ⊆ ids := by
      intro x hx
      obtain ⟨k, hk, rfl⟩ := List.mem_map.1 hx
      exact h k (List.mem_range.1 hk)
    simpa using (nd.subperm sub).length_le
  constructor
  · by_cases h : ∃ c, numbered p c ∉ ids
    · obtain ⟨c, hc⟩ := h; exact Count.exists hc 0 (Nat.zero_le _)
    · have := bound (ids.length + 1) fun k _ => Classical.not_not.1 fun hk => h ⟨k, hk⟩
      omega
  · intro c h
    have := h.spec
    exact ⟨bound c fun k hk => this.2.2 k (Nat.zero_le _) hk, this.2.1⟩

/-- **C107.** Names which have been generated one after another differ from each other and from all
identifiers of a program, each of them starts with the corresponding prefix. -/
theorem names_distinct {ids ps out ids'} (h : Names ids ps out ids') :
    out.Nodup ∧ (∀ x ∈ out, x ∉ ids) ∧ (∀ x, x ∈ ids' ↔ x ∈ out ∨ x ∈ ids) ∧
      out.length = ps.length ∧ ∀ (i : Nat) p x, ps[i]? = some p → out[i]? = some x → p <+: x := by
  induction h with
  | nil => simp
  | @cons ids p ps c out ids' hc hn ih =>
    obtain ⟨h₁, h₂, h₃, h₄, h₅⟩ := ih
    refine ⟨List.nodup_cons.2 ⟨fun h => h₂ _ h (by simp), h₁⟩, ?_, ?_, by simp [h₄], ?_⟩
    · intro x hx
      rcases List.mem_cons.1 hx with rfl | hx
      · exact hc.spec.2.1
      · exact fun h => h₂ x hx (List.mem_cons_of_mem _ h)
    · intro x
      rw [h₃]
      simp only [List.mem_cons]
      constructor
      · rintro (h | h | h)
        · exact .inl (.inr h)
        · exact .inl (.inl h)
        · exact .inr h
      · rintro ((h | h) | h)
        · exact .inr (.inl h)
        · exact .inl h
        · exact .inr (.inr h)
    · intro i q x hq hx
      cases i with
      | zero =>
        simp only [List.getElem?_cons_zero, Option.some.injEq] at hq hx
        subst hq hx
        exact List.prefix_append _ _
      | succ i => exact h₅ i q x (by simpa using hq) (by simpa using hx)

/-- **C107.** Generation of any sequence of names terminates. -/
theorem names_exist : ∀ (ps ids : List (List Char)), ∃ out ids', Names ids ps out ids'
  | [], ids => ⟨[], ids, .nil⟩
  | p :: ps, ids => by
    obtain ⟨c, hc⟩ := (suffix_new ids p).1
    obtain ⟨out, ids', h⟩ := names_exist ps (numbered p c :: ids)
    exact ⟨_, _, .cons hc h⟩

/-- Names `R0`, `R1` are in use: `R2` and `R3` are generated. -/
example : Names ["R0".toList, "R1".toList, "R".toList] ["R".toList, "R".toList]
    ["R2".toList, "R3".toList]
    ["R3".toList, "R2".toList, "R0".toList, "R1".toList, "R".toList] :=
  .cons (p := "R".toList) (c := 2)
    (.next (by decide +kernel) (.next (by decide +kernel) (.done (by decide +kernel))))
    (.cons (p := "R".toList) (c := 3)
      (.next (by decide +kernel) (.next (by decide +kernel) (.next (by decide +kernel)
        (.done (by decide +kernel))))) .nil)

end Tsar.Inline
