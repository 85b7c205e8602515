import Verif.MemMatch.Props

/-!
# Matching of variables and metadata in a scope (C185)

Models the loop over metadata in `MatchDIVisitor::TraverseStmt()` from
`/repo/lib/Analysis/Clang/DIMemoryMatcher.cpp`.
-/

namespace Tsar.MemMatch

/-- Search of a variable by a name: the variable and the variables after it
(`std::find_if`, `DIMemoryMatcher.cpp:198-201`). -/
def search (n : ℕ) : List Item → Option (Item × List Item)
  | [] => none
  | v :: vs => if v.name = n then some (v, vs) else search n vs

/-- The loop over metadata of a scope (`DIMemoryMatcher.cpp:193-209`): pairs of a variable and
metadata. The first argument is the list of variables from `SearchFromItr`. -/
def scopeLoop : List Item → List Item → List (Item × Item)
  | _, [] => []
  | vs, d :: ds => match search d.name vs with
    | none => scopeLoop vs ds
    | some (v, rest) => (v, d) :: scopeLoop rest ds

/-- Variables of a scope and its metadata are sorted by names and matched
(`DIMemoryMatcher.cpp:168-209, 281-285`). The location of the scope is valid, is not in a macro and has
metadata; statistics is not modelled. -/
def matchScope (srt : List Item → List Item) (vars metas : List Item) : List (Item × Item) :=
  scopeLoop (srt vars) (srt metas)

theorem search_none {n : ℕ} : ∀ {vs : List Item}, search n vs = none → ∀ v ∈ vs, v.name ≠ n
  | [], _, v, hv => by cases hv
  | w :: vs, h, v, hv => by
    rw [search] at h
    by_cases e : w.name = n
    · rw [if_pos e] at h
      cases h
    · rw [if_neg e] at h
      rcases List.mem_cons.1 hv with rfl | hv
      · exact e
      · exact search_none h v hv

theorem search_some {n : ℕ} {v : Item} {rest : List Item} : ∀ {vs : List Item},
    search n vs = some (v, rest) → v.name = n ∧ ∃ pre, vs = pre ++ v :: rest
  | [], h => by cases h
  | w :: vs, h => by
    rw [search] at h
    by_cases e : w.name = n
    · rw [if_pos e] at h
      cases h
      exact ⟨e, [], rfl⟩
    · rw [if_neg e] at h
      obtain ⟨h1, pre, h2⟩ := search_some h
      exact ⟨h1, w :: pre, by rw [h2]; rfl⟩

theorem scopeLoop_exact : ∀ (ds vs : List Item), vs.Pairwise (fun a b => a.name < b.name) →
    ds.Pairwise (fun a b => a.name < b.name) → ∀ v d,
    (v, d) ∈ scopeLoop vs ds ↔ v ∈ vs ∧ d ∈ ds ∧ v.name = d.name
  | [], vs, _, _, v, d => by simp [scopeLoop]
  | x :: ds, vs, hv, hd, v, d => by
    have hd' := List.pairwise_cons.1 hd
    rw [scopeLoop]
    cases h : search x.name vs with
    | none =>
      simp only
      rw [scopeLoop_exact ds vs hv hd'.2]
      constructor
      · rintro ⟨h1, h2, h3⟩
        exact ⟨h1, by simp [h2], h3⟩
      · rintro ⟨h1, h2, h3⟩
        rcases List.mem_cons.1 h2 with rfl | h2
        · exact absurd h3 (search_none h v h1)
        · exact ⟨h1, h2, h3⟩
    | some p =>
      obtain ⟨w, rest⟩ := p
      obtain ⟨hw, pre, rfl⟩ := search_some h
      have hp := List.pairwise_append.1 hv
      have hr := List.pairwise_cons.1 hp.2.1
      simp only [List.mem_cons, Prod.mk.injEq]
      rw [scopeLoop_exact ds rest hr.2 hd'.2]
      constructor
      · rintro (⟨rfl, rfl⟩ | ⟨h1, h2, h3⟩)
        · exact ⟨by simp, Or.inl rfl, hw⟩
        · exact ⟨by simp [h1], Or.inr h2, h3⟩
      · rintro ⟨h1, h2, h3⟩
        rcases List.mem_append.1 h1 with h1 | h1
        · have hlt := hp.2.2 v h1 w (by simp)
          rcases h2 with rfl | h2
          · omega
          · have := hd'.1 d h2
            omega
        · rcases List.mem_cons.1 h1 with rfl | h1
          · rcases h2 with rfl | h2
            · exact Or.inl ⟨rfl, rfl⟩
            · have := hd'.1 d h2
              omega
          · have hlt := hr.1 v h1
            rcases h2 with rfl | h2
            · omega
            · exact Or.inr ⟨h1, h2, h3⟩

theorem sorted_lt {srt : List Item → List Item} (hs : Sorts srt) {l : List Item} (h : Distinct l) :
    (srt l).Pairwise fun a b => a.name < b.name := by
  have hn : ((srt l).map Item.name).Nodup := (distinct_perm (hs l).1).2 h
  rw [List.Nodup, List.pairwise_map] at hn
  exact (hn.and (hs l).2).imp fun h => by have := h.1; have := h.2; omega

/-- **C185**: if variables of a scope have different names, and its metadata too, then a variable and
metadata are matched exactly if they have the same name, no matter in which order they are visited and
which variables have no metadata. -/
theorem scope_exact {srt : List Item → List Item} (hs : Sorts srt) {vars metas : List Item}
    (hv : Distinct vars) (hm : Distinct metas) (v d : Item) :
    (v, d) ∈ matchScope srt vars metas ↔ v ∈ vars ∧ d ∈ metas ∧ v.name = d.name := by
  unfold matchScope
  rw [scopeLoop_exact _ _ (sorted_lt hs hv) (sorted_lt hs hm), (hs vars).1.mem_iff,
    (hs metas).1.mem_iff]

/-- **C185**: each match has equal names, without conditions on variables. -/
theorem scope_names {srt : List Item → List Item} {vars metas : List Item} {p : Item × Item}
    (h : p ∈ matchScope srt vars metas) : p.1.name = p.2.name := by
  unfold matchScope at h
  have key : ∀ (ds vs : List Item), p ∈ scopeLoop vs ds → p.1.name = p.2.name := by
    intro ds
    induction ds with
    | nil => intro vs h; simp [scopeLoop] at h
    | cons x ds ih =>
      intro vs h
      rw [scopeLoop] at h
      cases hx : search x.name vs with
      | none => rw [hx] at h; exact ih vs h
      | some q =>
        obtain ⟨w, rest⟩ := q
        rw [hx] at h
        rcases List.mem_cons.1 h with rfl | h
        · exact (search_some hx).1
        · exact ih rest h
  exact key _ _ h

example : matchScope sort [⟨3, 10⟩, ⟨1, 11⟩, ⟨2, 12⟩] [⟨4, 20⟩, ⟨3, 21⟩, ⟨0, 22⟩, ⟨1, 23⟩] =
    [(⟨1, 11⟩, ⟨1, 23⟩), (⟨3, 10⟩, ⟨3, 21⟩)] := by decide +kernel
example : Distinct [⟨3, 10⟩, ⟨1, 11⟩, ⟨2, 12⟩] := by
  show List.Nodup _
  decide

end Tsar.MemMatch
