import Verif.FileTree.Model
import Mathlib.Data.List.Perm.Basic
import Mathlib.Data.List.Nodup
import Mathlib.Data.List.Sort

/-!
# Hierarchy of include files (C175-C177)
-/

namespace Tsar.FileTree

/-! ## Specification -/

/-- A file `f` is a file `g` or it includes `g`, directly or not. -/
inductive Anc (inc : Inc) (f : ℕ) : ℕ → Prop
  | refl : Anc inc f f
  | step {g p o : ℕ} (h : inc g = some (p, o)) (ha : Anc inc f p) : Anc inc f g

/-- Files are numbered in the order in which they are entered. -/
def Ordered (inc : Inc) : Prop := ∀ g p o, inc g = some (p, o) → p < g

/-- A file is required: it contains a declaration or it includes a file which does. -/
def Required (inc : Inc) (ds : List Decl) (f : ℕ) : Prop :=
  ∃ d ∈ ds, ∃ g, d.file = some g ∧ Anc inc f g

/-- The place of a file in a translation unit: offsets of includes which lead to the file. -/
inductive Path (inc : Inc) : ℕ → List ℕ → Prop
  | root {f : ℕ} (h : inc f = none) : Path inc f []
  | step {f p o : ℕ} {l : List ℕ} (h : inc f = some (p, o)) (hp : Path inc p l) :
      Path inc f (l ++ [o])

/-- The place of a declaration in a translation unit. -/
def Pos (inc : Inc) (d : Decl) (l : List ℕ) : Prop :=
  ∃ f l', d.file = some f ∧ Path inc f l' ∧ l = l' ++ [d.off]

/-- A declaration is before another one in a translation unit after preprocessing. -/
def Before (inc : Inc) (d d' : Decl) : Prop :=
  ∃ l l', Pos inc d l ∧ Pos inc d' l' ∧ List.Lex (· < ·) l l'

/-- Different declarations and includes in a file have different offsets. -/
structure Distinct (inc : Inc) (ds : List Decl) : Prop where
  nodup : ds.Nodup
  decls : ∀ d ∈ ds, ∀ d' ∈ ds, d.file = d'.file → d.off = d'.off → d = d'
  incs : ∀ g g' p o, inc g = some (p, o) → inc g' = some (p, o) → g = g'
  mixed : ∀ d ∈ ds, ∀ g f o, d.file = some f → inc g = some (f, o) → d.off ≠ o

/-- Contract of sorting: elements are permuted and ordered by offsets, the order of elements with
equal offsets is not specified. -/
def Sorts (srt : List Edge → List Edge) : Prop :=
  ∀ l, (srt l).Perm l ∧ (srt l).Pairwise fun a b => a.off ≤ b.off

/-- Items of a file: its declarations and included files from a list. -/
def items (inc : Inc) (ds : List Decl) (fs : List ℕ) (f : ℕ) : List Edge :=
  ((ds.filter fun d => d.file == some f).map fun d => ⟨.decl d, d.off⟩) ++
  (fs.filter fun g => (inc g).map Prod.fst == some f).map
    fun g => ⟨.file g, ((inc g).map Prod.snd).getD 0⟩

/-! ## Construction -/

/-- The tree with files from `L` which are linked with their parents. -/
structure K (inc : Inc) (ds : List Decl) (L : List ℕ) (st : St) : Prop where
  nodup : st.files.Nodup
  included : ∀ f ∈ st.files, st.included f = (inc f).isSome
  kids : ∀ f, (st.kids f).Perm (items inc ds L f)
  parent : ∀ g, st.parent g = if g ∈ L then (inc g).map Prod.fst else none
  closed : ∀ g ∈ L, ∀ p o, inc g = some (p, o) → p ∈ st.files

theorem insert_mem {inc : Inc} {st : St} {f : ℕ} (h : f ∈ st.files) : insert inc st f = (st, false) := by
  rw [insert, if_pos h]

theorem insert_new {inc : Inc} {st : St} {f : ℕ} (h : f ∉ st.files) : insert inc st f =
    ({ st with
      files := st.files ++ [f],
      included := fun g => if g = f then (inc f).isSome else st.included g }, true) := by
  rw [insert, if_neg h]

theorem anc_closed {inc : Inc} {fs : List ℕ} (h : ∀ g ∈ fs, ∀ p o, inc g = some (p, o) → p ∈ fs)
    {f g : ℕ} (ha : Anc inc f g) : g ∈ fs → f ∈ fs := by
  induction ha with
  | refl => exact id
  | step e _ ih => exact fun hg => ih (h _ hg _ _ e)

theorem items_snoc {inc : Inc} {ds : List Decl} {L : List ℕ} {g p o : ℕ} (e : inc g = some (p, o))
    (f : ℕ) : items inc ds (L ++ [g]) f =
      if f = p then items inc ds L f ++ [⟨.file g, o⟩] else items inc ds L f := by
  unfold items
  rw [List.filter_append, List.map_append]
  by_cases h : f = p
  · subst h
    rw [if_pos rfl, List.filter_cons_of_pos (by simp [e])]
    simp [e]
  · rw [if_neg h, List.filter_cons_of_neg (by simp [e, Ne.symm h])]
    simp

theorem items_root {inc : Inc} {ds : List Decl} {L : List ℕ} {g : ℕ} (e : inc g = none)
    (f : ℕ) : items inc ds (L ++ [g]) f = items inc ds L f := by
  unfold items
  rw [List.filter_append, List.map_append, List.filter_cons_of_neg (by simp [e])]
  simp

theorem climb_inv {inc : Inc} (ho : Ordered inc) {ds : List Decl} : ∀ (n fn : ℕ) (isNew : Bool)
    (st : St) (L : List ℕ), fn < n → K inc ds L st →
    st.files = (if isNew then L ++ [fn] else L) → fn ∈ st.files →
    K inc ds (climb inc n fn isNew st).files (climb inc n fn isNew st) ∧
    (∀ f, f ∈ (climb inc n fn isNew st).files ↔ f ∈ st.files ∨ Anc inc f fn) ∧
    (climb inc n fn isNew st).owner = st.owner ∧
    (climb inc n fn isNew st).internals = st.internals
  | n + 1, fn, isNew, st, L, hlt, hK, hL, hfn => by
    rw [climb]
    cases isNew with
    | false =>
      simp only [Bool.false_eq_true, if_false] at hL
      have hcl : ∀ f, f ∈ st.files ↔ f ∈ st.files ∨ Anc inc f fn := by
        intro f
        refine ⟨Or.inl, fun h => h.elim id fun ha => anc_closed (fun g hg p o e => ?_) ha hfn⟩
        rw [hL] at hg
        exact hK.closed g hg p o e
      cases e : inc fn with
      | none => exact ⟨by rw [hL]; exact hK, hcl, rfl, rfl⟩
      | some po => exact ⟨by simp only [Bool.false_eq_true, if_false]; rw [hL]; exact hK, hcl, rfl, rfl⟩
    | true =>
      simp only [if_true] at hL
      cases e : inc fn with
      | none =>
        refine ⟨⟨hK.nodup, hK.included, fun f => ?_, fun g => ?_, fun g hg p o eg => ?_⟩,
          fun f => ⟨Or.inl, fun h => h.elim id fun ha => ?_⟩, rfl, rfl⟩
        · simp only [hL]
          rw [items_root e]
          exact hK.kids f
        · simp only [hL]
          rw [hK.parent]
          by_cases hg : g ∈ L
          · simp [hg]
          · by_cases hg' : g = fn
            · subst hg'; simp [hg, e]
            · simp [hg, hg']
        · simp only [hL, List.mem_append, List.mem_singleton] at hg
          rcases hg with hg | rfl
          · exact hK.closed g hg p o eg
          · rw [e] at eg; cases eg
        · cases ha with
          | refl => exact hfn
          | step h => rw [e] at h; cases h
      | some po =>
        obtain ⟨p, o⟩ := po
        simp only [if_true]
        have hp : p < fn := ho _ _ _ e
        have hfL : fn ∉ L := by
          have := hK.nodup
          rw [hL, List.nodup_append] at this
          intro h
          exact this.2.2 fn h fn (by simp) rfl
        have kidsOk : ∀ f, (if f = p then st.kids f ++ [⟨.file fn, o⟩] else st.kids f).Perm
            (items inc ds (L ++ [fn]) f) := by
          intro f
          rw [items_snoc e]
          by_cases h : f = p
          · rw [if_pos h, if_pos h]
            exact (hK.kids f).append_right _
          · rw [if_neg h, if_neg h]
            exact hK.kids f
        have parentOk : ∀ g, (if g = fn then some p else st.parent g) =
            if g ∈ L ++ [fn] then (inc g).map Prod.fst else none := by
          intro g
          by_cases hg : g = fn
          · subst hg; simp [e]
          · rw [if_neg hg, hK.parent]
            simp [hg]
        by_cases hm : p ∈ st.files
        · rw [insert_mem hm]
          have hK' : K inc ds (L ++ [fn]) (pushFile st p fn o) := by
            refine ⟨hK.nodup, hK.included, kidsOk, parentOk, fun g hg q o' eg => ?_⟩
            rcases List.mem_append.1 hg with hg | hg
            · exact hK.closed g hg q o' eg
            · rw [List.mem_singleton] at hg
              subst hg
              rw [e] at eg
              cases eg
              exact hm
          obtain ⟨h1, h2, h3, h4⟩ := climb_inv ho n p false (pushFile st p fn o) (L ++ [fn])
            (by omega) hK' hL hm
          refine ⟨h1, fun f => ?_, h3, h4⟩
          rw [h2]
          refine or_congr_right' fun hf => ?_
          constructor
          · exact fun ha => .step e ha
          · intro ha
            cases ha with
            | refl => exact absurd hfn hf
            | step h ha => rw [e] at h; cases h; exact ha
        · rw [insert_new hm]
          have hK' : K inc ds (L ++ [fn]) (pushFile { st with
              files := st.files ++ [p],
              included := fun g => if g = p then (inc p).isSome else st.included g } p fn o) := by
            refine ⟨?_, fun f hf => ?_, kidsOk, parentOk, fun g hg q o' eg => ?_⟩
            · refine List.nodup_append.2 ⟨hK.nodup, by simp, fun a ha b hb hab => ?_⟩
              rw [List.mem_singleton] at hb
              subst hb hab
              exact hm ha
            · simp only [pushFile] at hf ⊢
              by_cases h : f = p
              · rw [if_pos h, h]
              · rw [if_neg h]
                refine hK.included f ?_
                rcases List.mem_append.1 hf with hf | hf
                · exact hf
                · exact absurd (List.mem_singleton.1 hf) h
            · simp only [pushFile, List.mem_append, List.mem_singleton]
              rcases List.mem_append.1 hg with hg | hg
              · exact Or.inl (hK.closed g hg q o' eg)
              · rw [List.mem_singleton] at hg
                subst hg
                rw [e] at eg
                cases eg
                exact Or.inr rfl
          obtain ⟨h1, h2, h3, h4⟩ := climb_inv ho n p true _ (L ++ [fn]) (by omega) hK'
            (by simp [pushFile, hL]) (by simp [pushFile])
          refine ⟨h1, fun f => ?_, h3, h4⟩
          rw [h2]
          simp only [pushFile, List.mem_append, List.mem_singleton]
          constructor
          · rintro ((h | rfl) | h)
            · exact Or.inl h
            · exact Or.inr (.step e .refl)
            · exact Or.inr (.step e h)
          · rintro (h | ha)
            · exact Or.inl (Or.inl h)
            · cases ha with
              | refl => exact Or.inl (Or.inl hfn)
              | step h ha => rw [e] at h; cases h; exact Or.inr ha

/-- The tree describes processed declarations. -/
structure Inv (inc : Inc) (ds : List Decl) (st : St) : Prop where
  k : K inc ds st.files st
  files : ∀ f, f ∈ st.files ↔ Required inc ds f
  owner : st.owner = ds.filterMap fun d => d.file.map fun f => (d, f)
  internals : st.internals = ds.filter fun d => d.file.isNone

theorem items_decl {inc : Inc} {ds : List Decl} {L : List ℕ} {d : Decl} (f : ℕ) :
    (items inc (ds ++ [d]) L f).Perm
      (if d.file = some f then items inc ds L f ++ [⟨.decl d, d.off⟩] else items inc ds L f) := by
  unfold items
  rw [List.filter_append, List.map_append]
  by_cases h : d.file = some f
  · rw [if_pos h, List.filter_cons_of_pos (by simp [h])]
    simp only [List.filter_nil, List.map_cons, List.map_nil, List.append_assoc]
    exact List.Perm.append_left _ List.perm_append_comm
  · rw [if_neg h, List.filter_cons_of_neg (by simp [h])]
    simp

theorem required_snoc {inc : Inc} {ds : List Decl} {d : Decl} {f : ℕ} :
    Required inc (ds ++ [d]) f ↔ Required inc ds f ∨ ∃ g, d.file = some g ∧ Anc inc f g := by
  constructor
  · rintro ⟨d', hd, h⟩
    rcases List.mem_append.1 hd with hd | hd
    · exact Or.inl ⟨d', hd, h⟩
    · rw [List.mem_singleton] at hd
      subst hd
      exact Or.inr h
  · rintro (⟨d', hd, h⟩ | h)
    · exact ⟨d', List.mem_append_left _ hd, h⟩
    · exact ⟨d, by simp, h⟩

theorem addDecl_inv {inc : Inc} (ho : Ordered inc) {ds : List Decl} {st : St} (h : Inv inc ds st)
    (d : Decl) : Inv inc (ds ++ [d]) (addDecl inc st d) := by
  unfold addDecl
  cases hd : d.file with
  | none =>
    refine ⟨⟨h.k.nodup, h.k.included, fun f => ?_, h.k.parent, h.k.closed⟩, fun f => ?_, ?_, ?_⟩
    · refine (h.k.kids f).trans ?_
      have := items_decl (inc := inc) (ds := ds) (L := st.files) (d := d) f
      rw [if_neg (by simp [hd])] at this
      exact this.symm
    · rw [required_snoc]
      simp only [hd]
      rw [h.files]
      simp
    · rw [List.filterMap_append]
      simp [hd, h.owner]
    · rw [List.filter_append]
      simp [hd, h.internals]
  | some f =>
    simp only
    have key : ∀ (st' : St) (b : Bool), K inc ds st.files st' →
        st'.files = (if b then st.files ++ [f] else st.files) → f ∈ st'.files →
        st'.owner = st.owner → st'.internals = st.internals →
        (∀ g, g ∈ st'.files ↔ g ∈ st.files ∨ g = f) →
        Inv inc (ds ++ [d]) (climb inc (f + 1) f b (pushDecl st' f d)) := by
      intro st' b hK hfs hmem hown hint hg
      have hK' : K inc (ds ++ [d]) st.files (pushDecl st' f d) := by
        refine ⟨hK.nodup, hK.included, fun g => ?_, hK.parent, hK.closed⟩
        refine List.Perm.trans ?_ (items_decl g).symm
        simp only [pushDecl]
        by_cases hgf : g = f
        · subst hgf
          rw [if_pos rfl, if_pos hd]
          exact (hK.kids g).append_right _
        · rw [if_neg hgf, if_neg (by rw [hd]; simp [Ne.symm hgf])]
          exact hK.kids g
      obtain ⟨h1, h2, h3, h4⟩ := climb_inv ho (f + 1) f b (pushDecl st' f d) st.files (by omega) hK'
        hfs hmem
      refine ⟨h1, fun g => ?_, ?_, ?_⟩
      · rw [h2, required_snoc, ← h.files]
        simp only [pushDecl, hg, hd, Option.some.injEq, exists_eq_left']
        constructor
        · rintro ((a | rfl) | a)
          · exact Or.inl a
          · exact Or.inr .refl
          · exact Or.inr a
        · rintro (a | a)
          · exact Or.inl (Or.inl a)
          · exact Or.inr a
      · rw [h3, List.filterMap_append]
        simp [pushDecl, hown, h.owner, hd]
      · rw [h4, List.filter_append]
        simp [pushDecl, hint, h.internals, hd]
    by_cases hm : f ∈ st.files
    · rw [insert_mem hm]
      refine key st false h.k rfl hm rfl rfl fun g => ⟨Or.inl, fun a => a.elim id ?_⟩
      rintro rfl
      exact hm
    · rw [insert_new hm]
      refine key _ true ⟨?_, fun g hg => ?_, h.k.kids, h.k.parent, fun g hg p o e => ?_⟩ rfl
        (by simp) rfl rfl fun g => by simp
      · refine List.nodup_append.2 ⟨h.k.nodup, by simp, fun a ha b hb hab => ?_⟩
        rw [List.mem_singleton] at hb
        subst hb hab
        exact hm ha
      · simp only at hg ⊢
        by_cases e : g = f
        · rw [if_pos e, e]
        · rw [if_neg e]
          refine h.k.included g ?_
          rcases List.mem_append.1 hg with hg | hg
          · exact hg
          · exact absurd (List.mem_singleton.1 hg) e
      · exact List.mem_append_left _ (h.k.closed g hg p o e)

theorem foldl_inv {inc : Inc} (ho : Ordered inc) : ∀ (ds ds' : List Decl) (st : St),
    Inv inc ds' st → Inv inc (ds' ++ ds) (ds.foldl (addDecl inc) st)
  | [], ds', st, h => by simpa using h
  | d :: ds, ds', st, h => by
    have := foldl_inv ho ds (ds' ++ [d]) _ (addDecl_inv ho h d)
    rwa [List.append_assoc] at this

theorem build_inv {inc : Inc} (ho : Ordered inc) (ds : List Decl) : Inv inc ds (build [(inc, ds)]) := by
  have h0 : Inv inc [] empty := by
    refine ⟨⟨by simp [empty], by simp [empty], fun f => by simp [empty, items],
      fun g => by simp [empty], by simp [empty]⟩, fun f => ?_, rfl, rfl⟩
    simp [empty, Required]
  simpa [build] using foldl_inv ho ds [] empty h0

/-! ## C175: files and their items -/

/-- The tree of a translation unit. -/
def tree (srt : List Edge → List Edge) (inc : Inc) (ds : List Decl) : St :=
  sortAll srt (build [(inc, ds)])

/-- **C175**: for each translation unit the tree consists of the files which contain declarations and
of the files which include them, children of each file are exactly its declarations and the files of
the tree it includes, each of them is mentioned once, in the order of offsets. -/
theorem tree_exact {inc : Inc} (ho : Ordered inc) (ds : List Decl) {srt : List Edge → List Edge}
    (hs : Sorts srt) :
    (tree srt inc ds).files.Nodup ∧ (∀ f, f ∈ (tree srt inc ds).files ↔ Required inc ds f) ∧
    ∀ f, ((tree srt inc ds).kids f).Perm (items inc ds (tree srt inc ds).files f) ∧
      ((tree srt inc ds).kids f).Pairwise fun a b => a.off ≤ b.off := by
  have h := build_inv ho ds
  exact ⟨h.k.nodup, h.files, fun f => ⟨(hs _).1.trans (h.k.kids f), (hs _).2⟩⟩

/-- **C175**: each declaration is found in its file. -/
theorem find_exact {inc : Inc} (ho : Ordered inc) (ds : List Decl) (srt : List Edge → List Edge)
    {d : Decl} (hd : d ∈ ds) : find (tree srt inc ds) d = d.file := by
  have h := (build_inv ho ds).owner
  unfold find tree sortAll
  simp only [h]
  clear h
  induction ds with
  | nil => cases hd
  | cons a l ih =>
    by_cases e : a = d
    · subst e
      cases ha : a.file with
      | none =>
        rw [List.filterMap_cons_none (by simp [ha])]
        rw [Option.map_eq_none_iff, List.find?_eq_none]
        intro x hx
        obtain ⟨y, _, hy⟩ := List.mem_filterMap.1 hx
        cases hf : y.file with
        | none => simp [hf] at hy
        | some f =>
          simp only [hf, Option.map_some, Option.some.injEq] at hy
          subst hy
          intro e
          simp only [beq_iff_eq] at e
          subst e
          rw [ha] at hf
          cases hf
      | some f =>
        rw [List.filterMap_cons_some (by rw [ha]; rfl)]
        simp
    · have hl : d ∈ l := by
        rcases List.mem_cons.1 hd with h | h
        · exact absurd h.symm e
        · exact h
      cases ha : a.file with
      | none =>
        rw [List.filterMap_cons_none (by simp [ha])]
        exact ih hl
      | some f =>
        rw [List.filterMap_cons_some (by rw [ha]; rfl)]
        rw [List.find?_cons_of_neg (by simpa using e)]
        exact ih hl

theorem findRoot_inv {inc : Inc} (ho : Ordered inc) {st : St}
    (hp : ∀ g ∈ st.files, st.parent g = (inc g).map Prod.fst)
    (hc : ∀ g ∈ st.files, ∀ p o, inc g = some (p, o) → p ∈ st.files) :
    ∀ (n f : ℕ), f < n → f ∈ st.files → inc (findRoot st n f) = none ∧ Anc inc (findRoot st n f) f
  | n + 1, f, hlt, hf => by
    rw [findRoot, hp f hf]
    cases e : inc f with
    | none => exact ⟨e, .refl⟩
    | some po =>
      obtain ⟨p, o⟩ := po
      have := ho _ _ _ e
      obtain ⟨h1, h2⟩ := findRoot_inv ho hp hc n p (by omega) (hc f hf p o e)
      exact ⟨h1, .step e h2⟩

/-- **C175**: the root of a file is the file which includes it and which is not included. -/
theorem root_exact {inc : Inc} (ho : Ordered inc) (ds : List Decl) (srt : List Edge → List Edge)
    {f : ℕ} (hf : Required inc ds f) :
    inc (findRoot (tree srt inc ds) (f + 1) f) = none ∧
    Anc inc (findRoot (tree srt inc ds) (f + 1) f) f := by
  have h := build_inv ho ds
  refine findRoot_inv ho (st := tree srt inc ds) (fun g hg => ?_) h.k.closed (f + 1) f (by omega)
    ((h.files f).2 hf)
  exact (h.k.parent g).trans (if_pos hg)

/-- **C175**: top-level files are the files of the tree which are not included, internal declarations
are the declarations which do not belong to files. -/
theorem roots_exact {inc : Inc} (ho : Ordered inc) (ds : List Decl) (srt : List Edge → List Edge) :
    (rootFiles (tree srt inc ds)).Nodup ∧
    (∀ c, c ∈ rootFiles (tree srt inc ds) ↔ ∃ f, c = .file f ∧ Required inc ds f ∧ inc f = none) ∧
    (tree srt inc ds).internals = ds.filter fun d => d.file.isNone := by
  have h := build_inv ho ds
  have e : rootFiles (tree srt inc ds) = (((build [(inc, ds)]).files.filter
      fun f => !(build [(inc, ds)]).included f).map .file) := by
    unfold rootFiles roots tree sortAll
    simp only
    rw [List.drop_left' (by simp)]
  rw [e]
  refine ⟨?_, fun c => ?_, h.internals⟩
  · exact (h.k.nodup.filter _).map fun a b hab => by cases hab; rfl
  · simp only [List.mem_map, List.mem_filter]
    constructor
    · rintro ⟨f, ⟨hf, hi⟩, rfl⟩
      refine ⟨f, rfl, (h.files f).1 hf, ?_⟩
      rw [h.k.included f hf] at hi
      cases ei : inc f with
      | none => rfl
      | some _ => simp [ei] at hi
    · rintro ⟨f, rfl, hf, hi⟩
      refine ⟨f, ⟨(h.files f).2 hf, ?_⟩, rfl⟩
      rw [h.k.included f ((h.files f).2 hf), hi]
      rfl

/-! ## C176: traversal -/

/-- Declarations which are visited through a child. -/
def visit (st : St) (n : ℕ) (e : Edge) : List Decl :=
  match e.child with
  | .decl d => [d]
  | .file g => dfs st n g

theorem dfs_succ (st : St) (n f : ℕ) : dfs st (n + 1) f = (st.kids f).flatMap (visit st n) := rfl

theorem mem_items {inc : Inc} {ds : List Decl} {fs : List ℕ} {f : ℕ} {e : Edge} :
    e ∈ items inc ds fs f ↔
      (∃ d ∈ ds, d.file = some f ∧ e = ⟨.decl d, d.off⟩) ∨
      ∃ g ∈ fs, ∃ o, inc g = some (f, o) ∧ e = ⟨.file g, o⟩ := by
  unfold items
  simp only [List.mem_append, List.mem_map, List.mem_filter, beq_iff_eq]
  refine or_congr ?_ ?_
  · constructor
    · rintro ⟨d, ⟨h1, h2⟩, rfl⟩
      exact ⟨d, h1, h2, rfl⟩
    · rintro ⟨d, h1, h2, rfl⟩
      exact ⟨d, ⟨h1, h2⟩, rfl⟩
  · constructor
    · rintro ⟨g, ⟨h1, h2⟩, rfl⟩
      cases e : inc g with
      | none => simp [e] at h2
      | some po =>
        obtain ⟨p, o⟩ := po
        simp only [e, Option.map_some, Option.some.injEq] at h2
        subst h2
        exact ⟨g, h1, o, e, by simp⟩
    · rintro ⟨g, h1, o, h2, rfl⟩
      exact ⟨g, ⟨h1, by simp [h2]⟩, by simp [h2]⟩

theorem anc_down {inc : Inc} {f g : ℕ} (h : Anc inc f g) :
    f = g ∨ ∃ k o, inc k = some (f, o) ∧ Anc inc k g := by
  induction h with
  | refl => exact Or.inl rfl
  | step e _ ih =>
    rcases ih with rfl | ⟨k, o, h1, h2⟩
    · exact Or.inr ⟨_, _, e, .refl⟩
    · exact Or.inr ⟨k, o, h1, .step e h2⟩

theorem anc_trans {inc : Inc} {a b c : ℕ} (h : Anc inc a b) (h' : Anc inc b c) : Anc inc a c := by
  induction h' with
  | refl => exact h
  | step e _ ih => exact .step e ih

theorem dfs_mem {inc : Inc} (ho : Ordered inc) {ds : List Decl} {st : St}
    (hf : ∀ f, f ∈ st.files ↔ Required inc ds f)
    (hk : ∀ f, (st.kids f).Perm (items inc ds st.files f)) : ∀ (n f : ℕ),
    (∀ g ∈ st.files, g < f + n) → ∀ d, d ∈ dfs st n f ↔
      d ∈ ds ∧ ∃ g, d.file = some g ∧ Anc inc f g
  | 0, f, hb, d => by
    simp only [dfs, List.not_mem_nil, false_iff, not_and]
    rintro hd ⟨g, hg, ha⟩
    have := hb f ((hf f).2 ⟨d, hd, g, hg, ha⟩)
    omega
  | n + 1, f, hb, d => by
    rw [dfs_succ, List.mem_flatMap]
    constructor
    · rintro ⟨e, he, hd⟩
      rw [(hk f).mem_iff, mem_items] at he
      rcases he with ⟨d', h1, h2, rfl⟩ | ⟨g, h1, o, h2, rfl⟩
      · simp only [visit, List.mem_singleton] at hd
        subst hd
        exact ⟨h1, f, h2, .refl⟩
      · have hlt := ho _ _ _ h2
        obtain ⟨h3, k, h4, h5⟩ := (dfs_mem ho hf hk n g
          (fun x hx => by have := hb x hx; omega) d).1 hd
        exact ⟨h3, k, h4, anc_trans (.step h2 .refl) h5⟩
    · rintro ⟨hd, g, hg, ha⟩
      rcases anc_down ha with rfl | ⟨k, o, h1, h2⟩
      · refine ⟨⟨.decl d, d.off⟩, ?_, by simp [visit]⟩
        rw [(hk f).mem_iff, mem_items]
        exact Or.inl ⟨d, hd, hg, rfl⟩
      · refine ⟨⟨.file k, o⟩, ?_, ?_⟩
        · rw [(hk f).mem_iff, mem_items]
          exact Or.inr ⟨k, (hf k).2 ⟨d, hd, g, hg, h2⟩, o, h1, rfl⟩
        · have hlt := ho _ _ _ h1
          exact (dfs_mem ho hf hk n k (fun x hx => by have := hb x hx; omega) d).2
            ⟨hd, g, hg, h2⟩

theorem anc_path {inc : Inc} {f g : ℕ} (h : Anc inc f g) {l : List ℕ} (hp : Path inc f l) :
    ∃ r, Path inc g (l ++ r) := by
  induction h with
  | refl => exact ⟨[], by simpa using hp⟩
  | step e _ ih =>
    obtain ⟨r, hr⟩ := ih
    exact ⟨r ++ [_], by rw [← List.append_assoc]; exact .step e hr⟩

theorem lex_split {a b : ℕ} (h : a < b) (r r' : List ℕ) : ∀ l : List ℕ,
    List.Lex (· < ·) (l ++ a :: r) (l ++ b :: r')
  | [] => List.Lex.rel h
  | _ :: l => List.Lex.cons (lex_split h r r' l)

theorem visit_pos {inc : Inc} (ho : Ordered inc) {ds : List Decl} {st : St}
    (hf : ∀ f, f ∈ st.files ↔ Required inc ds f)
    (hk : ∀ f, (st.kids f).Perm (items inc ds st.files f)) {n f : ℕ}
    (hb : ∀ g ∈ st.files, g < f + (n + 1)) {l : List ℕ} (hp : Path inc f l) {e : Edge}
    (he : e ∈ st.kids f) {d : Decl} (hd : d ∈ visit st n e) : ∃ r, Pos inc d (l ++ e.off :: r) := by
  rw [(hk f).mem_iff, mem_items] at he
  rcases he with ⟨d', h1, h2, rfl⟩ | ⟨g, h1, o, h2, rfl⟩
  · simp only [visit, List.mem_singleton] at hd
    subst hd
    exact ⟨[], f, l, h2, hp, rfl⟩
  · have hlt := ho _ _ _ h2
    obtain ⟨_, k, h4, h5⟩ := (dfs_mem ho hf hk n g
      (fun x hx => by have := hb x hx; omega) d).1 hd
    obtain ⟨r, hr⟩ := anc_path h5 (Path.step h2 hp)
    exact ⟨r ++ [d.off], k, _, h4, hr, by simp⟩

theorem items_offs {inc : Inc} {ds : List Decl} (hd : Distinct inc ds) {fs : List ℕ}
    (hn : fs.Nodup) (f : ℕ) : ((items inc ds fs f).map Edge.off).Nodup := by
  unfold items
  rw [List.map_append, List.map_map, List.map_map, List.nodup_append]
  have hinc : ∀ g, ((inc g).map Prod.fst == some f) = true →
      inc g = some (f, ((inc g).map Prod.snd).getD 0) := by
    intro g hg
    rw [beq_iff_eq] at hg
    cases e : inc g with
    | none => simp [e] at hg
    | some po =>
      obtain ⟨p, o⟩ := po
      simp only [e, Option.map_some, Option.some.injEq] at hg
      subst hg
      simp
  refine ⟨List.Nodup.map_on ?_ (hd.nodup.filter _), List.Nodup.map_on ?_ (hn.filter _), ?_⟩
  · intro a ha b hb e
    rw [List.mem_filter, beq_iff_eq] at ha hb
    exact hd.decls a ha.1 b hb.1 (ha.2.trans hb.2.symm) e
  · intro a ha b hb e
    rw [List.mem_filter] at ha hb
    have h1 := hinc a ha.2
    have h2 := hinc b hb.2
    simp only [Function.comp] at e
    rw [← e] at h2
    exact hd.incs a b f _ h1 h2
  · intro a ha b hb e
    simp only [List.mem_map, List.mem_filter, Function.comp] at ha hb
    obtain ⟨d, ⟨h1, h2⟩, rfl⟩ := ha
    obtain ⟨g, ⟨_, h3⟩, rfl⟩ := hb
    exact hd.mixed d h1 g f _ (by simpa using h2) (hinc g h3) e

theorem dfs_order {inc : Inc} (ho : Ordered inc) {ds : List Decl} {st : St}
    (hf : ∀ f, f ∈ st.files ↔ Required inc ds f)
    (hk : ∀ f, (st.kids f).Perm (items inc ds st.files f))
    (hlt : ∀ f, (st.kids f).Pairwise fun a b => a.off < b.off) : ∀ (n f : ℕ),
    (∀ g ∈ st.files, g < f + n) → ∀ l, Path inc f l → (dfs st n f).Pairwise (Before inc)
  | 0, _, _, _, _ => by simp [dfs]
  | n + 1, f, hb, l, hp => by
    rw [dfs_succ, List.pairwise_flatMap]
    refine ⟨fun e he => ?_, ?_⟩
    · have he' := he
      rw [(hk f).mem_iff, mem_items] at he'
      rcases he' with ⟨d', h1, h2, rfl⟩ | ⟨g, h1, o, h2, rfl⟩
      · simp [visit]
      · have := ho _ _ _ h2
        exact dfs_order ho hf hk hlt n g (fun x hx => by have := hb x hx; omega) _ (.step h2 hp)
    · refine (List.Pairwise.and_mem.1 (hlt f)).imp ?_
      rintro a b ⟨ha, hb', hab⟩ d hd d' hd'
      obtain ⟨r, h1⟩ := visit_pos ho hf hk hb hp ha hd
      obtain ⟨r', h2⟩ := visit_pos ho hf hk hb hp hb' hd'
      exact ⟨_, _, h1, h2, lex_split hab r r' l⟩

theorem depth_le (st : St) (f : ℕ) : ∀ g ∈ st.files, g < f + depth st := by
  have : ∀ (l : List ℕ), ∀ g ∈ l, g ≤ l.foldr max 0 := by
    intro l
    induction l with
    | nil => simp
    | cons a l ih =>
      intro g hg
      rcases List.mem_cons.1 hg with rfl | hg
      · exact Nat.le_max_left ..
      · exact (ih g hg).trans (Nat.le_max_right ..)
  intro g hg
  have := this _ g hg
  unfold depth
  omega

/-- **C176**: a depth first traversal from a file visits exactly the declarations which are written in
this file and in the files it includes. -/
theorem traversal_exact {inc : Inc} (ho : Ordered inc) (ds : List Decl)
    {srt : List Edge → List Edge} (hs : Sorts srt) (f : ℕ) (d : Decl) :
    d ∈ dfs (tree srt inc ds) (depth (tree srt inc ds)) f ↔
      d ∈ ds ∧ ∃ g, d.file = some g ∧ Anc inc f g := by
  obtain ⟨_, h2, h3⟩ := tree_exact ho ds hs
  exact dfs_mem ho h2 (fun f => (h3 f).1) _ f (depth_le _ f) d

/-- **C176**, partial: if different items of a file have different offsets then a traversal from a
top-level file visits declarations in the order in which the compiler sees them. Missing: items with
equal offsets, see `tie_fails`. -/
theorem order_partial {inc : Inc} (ho : Ordered inc) {ds : List Decl} (hd : Distinct inc ds)
    {srt : List Edge → List Edge} (hs : Sorts srt) {f : ℕ} {l : List ℕ} (hp : Path inc f l) :
    (dfs (tree srt inc ds) (depth (tree srt inc ds)) f).Pairwise (Before inc) := by
  obtain ⟨h1, h2, h3⟩ := tree_exact ho ds hs
  refine dfs_order ho h2 (fun f => (h3 f).1) (fun f => ?_) _ f (depth_le _ f) l hp
  have hn : (((tree srt inc ds).kids f).map Edge.off).Nodup :=
    ((h3 f).1.map Edge.off).nodup_iff.2 (items_offs hd h1 f)
  rw [List.Nodup, List.pairwise_map] at hn
  exact (hn.and (h3 f).2).imp fun h => by have := h.1; have := h.2; omega

theorem path_unique {inc : Inc} {f : ℕ} {l l' : List ℕ} (h : Path inc f l) (h' : Path inc f l') :
    l = l' := by
  induction h generalizing l' with
  | root e =>
    cases h' with
    | root => rfl
    | step e' => rw [e] at e'; cases e'
  | step e _ ih =>
    cases h' with
    | root e' => rw [e] at e'; cases e'
    | step e' hp =>
      rw [e] at e'
      cases e'
      rw [ih hp]

/-- **C176**: the order is strict, so no declaration is visited twice. -/
theorem before_irrefl (inc : Inc) (d : Decl) : ¬ Before inc d d := by
  rintro ⟨l, l', ⟨f, a, h1, h2, rfl⟩, ⟨g, b, h3, h4, rfl⟩, h⟩
  rw [h1] at h3
  cases h3
  rw [path_unique h2 h4] at h
  have : ∀ x : List ℕ, ¬ List.Lex (· < ·) x x := by
    intro x
    induction x with
    | nil => intro h; cases h
    | cons a x ih =>
      intro h
      cases h with
      | rel h => omega
      | cons h => exact ih h
  exact this _ h

/-- **C176**: each declaration is visited once. -/
theorem traversal_once {inc : Inc} (ho : Ordered inc) {ds : List Decl} (hd : Distinct inc ds)
    {srt : List Edge → List Edge} (hs : Sorts srt) {f : ℕ} {l : List ℕ} (hp : Path inc f l) :
    (dfs (tree srt inc ds) (depth (tree srt inc ds)) f).Nodup :=
  (order_partial ho hd hs hp).imp fun {a b} h e => by
    subst e
    exact before_irrefl _ _ h

/-! ## Disagreements and examples -/

/-- Insertion in an ordered list before elements with equal offsets. -/
def ins (e : Edge) : List Edge → List Edge
  | [] => [e]
  | a :: l => if e.off ≤ a.off then e :: a :: l else a :: ins e l

theorem ins_perm (e : Edge) : ∀ l, (ins e l).Perm (e :: l)
  | [] => .refl _
  | a :: l => by
    rw [ins]
    by_cases h : e.off ≤ a.off
    · rw [if_pos h]
    · rw [if_neg h]
      exact ((ins_perm e l).cons a).trans (.swap ..)

theorem ins_sorted (e : Edge) : ∀ l : List Edge, l.Pairwise (fun a b => a.off ≤ b.off) →
    (ins e l).Pairwise fun a b => a.off ≤ b.off
  | [], _ => by simp [ins]
  | a :: l, h => by
    rw [ins]
    have h' := List.pairwise_cons.1 h
    by_cases hle : e.off ≤ a.off
    · rw [if_pos hle]
      refine List.pairwise_cons.2 ⟨fun b hb => ?_, h⟩
      rcases List.mem_cons.1 hb with rfl | hb
      · exact hle
      · exact hle.trans (h'.1 b hb)
    · rw [if_neg hle]
      refine List.pairwise_cons.2 ⟨fun b hb => ?_, ins_sorted e l h'.2⟩
      rcases List.mem_cons.1 ((ins_perm e l).mem_iff.1 hb) with rfl | hb
      · omega
      · exact h'.1 b hb

/-- A stable sort. -/
def stable (l : List Edge) : List Edge := l.foldr ins []

theorem stable_sorts : Sorts stable := fun l => by
  unfold stable
  induction l with
  | nil => simp
  | cons a l ih => exact ⟨(ins_perm a _).trans (ih.1.cons a), ins_sorted a _ ih.2⟩

/-- A sort which reverses elements with equal offsets. -/
def unstable (l : List Edge) : List Edge := stable l.reverse

theorem unstable_sorts : Sorts unstable := fun l =>
  ⟨(stable_sorts l.reverse).1.trans (List.reverse_perm l), (stable_sorts l.reverse).2⟩

/-- A main file `1` includes a file `2` at 10 and a file `4` at 30; the file `2` includes a file `3`
at 5. -/
def exInc : Inc := fun f =>
  if f = 2 then some (1, 10) else if f = 3 then some (2, 5) else if f = 4 then some (1, 30) else none

/-- Declarations of the example, the last one is internal. -/
def exDecls : List Decl :=
  [⟨0, some 1, 20⟩, ⟨1, some 3, 7⟩, ⟨2, some 2, 9⟩, ⟨3, some 2, 1⟩, ⟨4, some 1, 40⟩, ⟨5, none, 0⟩]

theorem exOrdered : Ordered exInc := by
  intro g p o h
  unfold exInc at h
  split at h
  · cases h; omega
  · split at h
    · cases h; omega
    · split at h
      · cases h; omega
      · cases h

/-- **C177**, partial: the number of top-level files is reported for a translation unit if each
declaration belongs to a file. Missing: internal declarations (`root_size_fails`) and several
translation units (`units_fails`). -/
theorem root_size_partial {inc : Inc} (ho : Ordered inc) (ds : List Decl)
    (srt : List Edge → List Edge) (hf : ∀ d ∈ ds, d.file ≠ none) :
    rootSize (tree srt inc ds) = (rootFiles (tree srt inc ds)).length := by
  have h : (tree srt inc ds).internals = [] := by
    rw [(roots_exact ho ds srt).2.2, List.filter_eq_nil_iff]
    intro d hd
    simpa using hf d hd
  unfold rootSize rootFiles
  rw [h]
  rfl

example : ∀ d ∈ exDecls.take 5, d.file ≠ none := by decide

/-- **C177**, disagreement: the number of top-level files which is reported by the tree counts internal
declarations. -/
theorem root_size_fails : ∃ (inc : Inc) (ds : List Decl), Ordered inc ∧
    ∀ srt, rootSize (tree srt inc ds) ≠ (rootFiles (tree srt inc ds)).length :=
  ⟨exInc, exDecls, exOrdered, fun srt => by
    show rootSize (build [(exInc, exDecls)]) ≠ (rootFiles (build [(exInc, exDecls)])).length
    decide +kernel⟩

theorem single_ordered : Ordered fun _ => none := by
  intro g p o h
  cases h

/-- **C177**, disagreement: a file number identifies a file inside a translation unit only, so
declarations from main files of two translation units become children of the same file. -/
theorem units_fails : ∃ (inc inc' : Inc) (d d' : Decl), Ordered inc ∧ Ordered inc' ∧ d ≠ d' ∧
    (build [(inc, [d]), (inc', [d'])]).files.length = 1 ∧
    ∃ f, Edge.mk (.decl d) d.off ∈ (build [(inc, [d]), (inc', [d'])]).kids f ∧
      Edge.mk (.decl d') d'.off ∈ (build [(inc, [d]), (inc', [d'])]).kids f :=
  ⟨fun _ => none, fun _ => none, ⟨0, some 1, 3⟩, ⟨1, some 1, 8⟩, single_ordered,
    single_ordered, by decide, by decide +kernel, 1, by decide +kernel, by decide +kernel⟩

/-- **C176**, disagreement: declarations which are produced by one macro have the same offset, so their
order depends on a sorting algorithm. -/
theorem tie_fails : ∃ (inc : Inc) (ds : List Decl), Ordered inc ∧ ds.Nodup ∧
    ∃ srt srt', Sorts srt ∧ Sorts srt' ∧
      dfs (tree srt inc ds) (depth (tree srt inc ds)) 1 ≠
        dfs (tree srt' inc ds) (depth (tree srt' inc ds)) 1 :=
  ⟨fun _ => none, [⟨0, some 1, 3⟩, ⟨1, some 1, 3⟩], single_ordered, by decide,
    stable, unstable, stable_sorts, unstable_sorts, by
      have h1 : dfs (tree stable (fun _ => none) [⟨0, some 1, 3⟩, ⟨1, some 1, 3⟩])
          (depth (tree stable (fun _ => none) [⟨0, some 1, 3⟩, ⟨1, some 1, 3⟩])) 1 =
          [⟨0, some 1, 3⟩, ⟨1, some 1, 3⟩] := by decide +kernel
      have h2 : dfs (tree unstable (fun _ => none) [⟨0, some 1, 3⟩, ⟨1, some 1, 3⟩])
          (depth (tree unstable (fun _ => none) [⟨0, some 1, 3⟩, ⟨1, some 1, 3⟩])) 1 =
          [⟨1, some 1, 3⟩, ⟨0, some 1, 3⟩] := by decide +kernel
      rw [h1, h2]
      decide⟩

/-- Hypotheses of `order_partial` are met. -/
theorem exDistinct : Distinct exInc exDecls := by
  refine ⟨by decide, by decide, ?_, ?_⟩
  · intro g g' p o h h'
    unfold exInc at h h'
    split_ifs at h h' <;> simp only [Option.some.injEq, Prod.mk.injEq] at h h' <;> omega
  · intro d hd g f o h h'
    unfold exInc at h'
    simp only [exDecls, List.mem_cons, List.not_mem_nil, or_false] at hd
    split_ifs at h' <;> rcases hd with rfl | rfl | rfl | rfl | rfl | rfl <;> simp_all <;> omega

example : Path exInc 1 [] := .root (by decide)
example : Required exInc exDecls 2 := ⟨⟨1, some 3, 7⟩, by decide, 3, rfl, .step (p := 2) (o := 5) (by decide) .refl⟩
example : ((dfs (tree stable exInc exDecls) (depth (tree stable exInc exDecls)) 1).map Decl.id) =
    [3, 1, 2, 0, 4] := by decide +kernel
example : findRoot (tree stable exInc exDecls) 4 3 = 1 := by decide +kernel
example : (tree stable exInc exDecls).files = [1, 3, 2] := by decide +kernel

end Tsar.FileTree
