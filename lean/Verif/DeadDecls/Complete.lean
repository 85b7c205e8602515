import Verif.DeadDecls.Props

/-
Declarations which are removed (C104).
-/

namespace Tsar
namespace DeadDecls

variable {all : List Decl}

/-- Members of the map of types. -/
def Keys (all : List Decl) (v : VState) : Prop :=
  ∀ p ∈ v.types, ∃ d ∈ all, d.id = p.2 ∧ Name.type p.1 ∈ d.provides

/-- Names do not mention the declaration. -/
def Free (d : Decl) (ns : List Name) : Prop := ∀ n ∈ ns, n ∉ Name.var d.id :: d.provides

theorem Free.left {d : Decl} {a b : List Name} (h : Free d (a ++ b)) : Free d a := fun n hn =>
  h n (List.mem_append_left _ hn)

theorem Free.right {d : Decl} {a b : List Name} (h : Free d (a ++ b)) : Free d b := fun n hn =>
  h n (List.mem_append_right _ hn)

theorem Keys.typeLoc {v : VState} (h : Keys all v) (t : Nat) : Keys all (v.typeLoc t) := by
  rcases typeLoc_dead v t with ⟨-, h1⟩ | ⟨d, -, h1⟩
  · rw [h1]; exact h
  · rw [h1]
    exact fun p hp => h p (List.mem_filter.1 hp).1

theorem Keys.use {v : VState} (h : Keys all v) (n : Name) : Keys all (v.use n) := by
  cases n with
  | var d => exact h
  | type t => exact h.typeLoc t
  | complete t => exact h.typeLoc t
  | consts d => exact h

theorem Keys.uses {v : VState} (h : Keys all v) (ns : List Name) : Keys all (v.uses ns) := by
  induction ns generalizing v with
  | nil => exact h
  | cons n ns ih => exact ih (h.use n)

theorem Keys.declare {v : VState} (h : Keys all v) {d : Decl} (hd : d ∈ all) (param mac : Bool) :
    Keys all (v.declare param mac d) := by
  unfold VState.declare
  cases hk : d.kind with
  | var s => exact h
  | tag t f en =>
    dsimp only
    split
    · exact h
    · intro p hp
      rcases List.mem_cons.1 hp with rfl | hp
      · exact ⟨d, hd, rfl, by rw [Decl.provides, hk]; exact List.mem_cons_self⟩
      · exact h p hp

theorem typeLoc_keeps (hi : ∀ d ∈ all, ∀ d' ∈ all, d.id = d'.id → d = d') {v : VState} (h : Keys all v) {e : Entry}
    (he : e ∈ v.dead) (hd : e.decl ∈ all) {t : Nat} (hf : Name.type t ∉ e.decl.provides) :
    e ∈ (v.typeLoc t).dead := by
  rcases typeLoc_dead v t with ⟨-, h1⟩ | ⟨d, h2, h1⟩
  · rw [h1]; exact he
  · rw [h1]
    refine mem_erase.2 ⟨he, fun heq => ?_⟩
    obtain ⟨d', h3, h4, h5⟩ := h _ (lookup_mem h2)
    have := hi _ hd _ h3 (heq.trans h4.symm)
    exact hf (this ▸ h5)

/-- Lists of names mention a type each time they mention its definition. -/
def Paired (ns : List Name) : Prop := ∀ t, Name.complete t ∈ ns → Name.type t ∈ ns

theorem Paired.append {a b : List Name} (ha : Paired a) (hb : Paired b) : Paired (a ++ b) := by
  intro t ht
  rcases List.mem_append.1 ht with ht | ht
  · exact List.mem_append_left _ (ha t ht)
  · exact List.mem_append_right _ (hb t ht)

theorem paired_names (e : Expr) : Paired e.names := by
  induction e with
  | op o a b iha ihb => exact iha.append ihb
  | cond c a b ihc iha ihb => exact ihc.append (iha.append ihb)
  | deref a ih => exact ih
  | assign d e ih => exact Paired.append (a := [.var d]) (fun t ht => by simp at ht) ih
  | update o d e ih => exact Paired.append (a := [.var d]) (fun t ht => by simp at ht) ih
  | store a e iha ihb => exact iha.append ihb
  | call f a b iha ihb => exact iha.append ihb
  | ctor f a b iha ihb => exact iha.append ihb
  | sizeOf t => intro t' ht; simp [Expr.names] at ht ⊢; exact ht
  | _ => intro t ht; simp [Expr.names] at ht

theorem paired_opt (e : Option Expr) : Paired (optNames e) := by
  cases e with
  | none => intro t ht; cases ht
  | some e => exact paired_names e

theorem paired_decl (d : Decl) : Paired d.names := by
  refine Paired.append ?_ ((paired_opt _).append (paired_opt _))
  intro t ht
  simp only [List.mem_flatMap, List.mem_cons, List.not_mem_nil, or_false] at ht ⊢
  obtain ⟨x, h1, h2⟩ := ht
  rcases h2 with h2 | h2
  · cases h2
  · cases h2
    exact ⟨t, h1, .inl rfl⟩

theorem uses_keeps (hi : ∀ d ∈ all, ∀ d' ∈ all, d.id = d'.id → d = d') {ns : List Name}
    {v : VState} (h : Keys all v) {e : Entry} (he : e ∈ v.dead) (hd : e.decl ∈ all)
    (hf : Free e.decl ns) (hp : ∀ t, Name.complete t ∈ ns → Name.type t ∉ e.decl.provides) :
    e ∈ (v.uses ns).dead := by
  induction ns generalizing v with
  | nil => exact he
  | cons n ns ih =>
    refine ih (h.use n) ?_ (fun m hm => hf m (List.mem_cons_of_mem _ hm)) fun t ht => hp t (List.mem_cons_of_mem _ ht)
    have hn := hf n List.mem_cons_self
    cases n with
    | var d =>
      refine mem_erase.2 ⟨he, fun heq => hn ?_⟩
      rw [← heq]
      exact List.mem_cons_self
    | type t => exact typeLoc_keeps hi h he hd fun hm => hn (List.mem_cons_of_mem _ hm)
    | complete t => exact typeLoc_keeps hi h he hd (hp t List.mem_cons_self)
    | consts d => exact he

theorem uses_keeps' (hi : ∀ d ∈ all, ∀ d' ∈ all, d.id = d'.id → d = d') {ns : List Name} (hp : Paired ns)
    {v : VState} (h : Keys all v) {e : Entry} (he : e ∈ v.dead) (hd : e.decl ∈ all)
    (hf : Free e.decl ns) : e ∈ (v.uses ns).dead :=
  uses_keeps hi h he hd hf fun t ht hm => hf _ (hp t ht) (List.mem_cons_of_mem _ hm)

/-- Results of a visit. -/
structure Keep (all : List Decl) (v v' : VState) (new : List Decl) (ns : List Name) : Prop where
  keys : Keys all v'
  old : ∀ e ∈ v.dead, e.decl ∈ all → Free e.decl ns → e ∈ v'.dead
  new : ∀ d ∈ new, Free d ns → (⟨d, false, false⟩ : Entry) ∈ v'.dead

theorem Keep.comp {v v₁ v₂ : VState} {new₁ new₂ : List Decl} {ns₁ ns₂ : List Name}
    (h₁ : Keep all v v₁ new₁ ns₁) (h₂ : Keep all v₁ v₂ new₂ ns₂) (hd : ∀ d ∈ new₁, d ∈ all) :
    Keep all v v₂ (new₁ ++ new₂) (ns₁ ++ ns₂) where
  keys := h₂.keys
  old := fun e he hd hf => h₂.old e (h₁.old e he hd hf.left) hd hf.right
  new := by
    intro d hm hf
    rcases List.mem_append.1 hm with hm | hm
    · exact h₂.old _ (h₁.new d hm hf.left) (hd d hm) hf.right
    · exact h₂.new d hm hf.right

section
variable (hi : ∀ d ∈ all, ∀ d' ∈ all, d.id = d'.id → d = d')
include hi

theorem uses_keep {v : VState} (h : Keys all v) {ns : List Name} (hp : Paired ns) : Keep all v (v.uses ns) [] ns :=
  ⟨h.uses ns, fun _ he hd hf => uses_keeps' hi hp h he hd hf, fun d hd => by cases hd⟩

theorem visitDecl_keep {v : VState} (h : Keys all v) {d : Decl} (hd : d ∈ all) (mac : Bool) :
    Keep all v (visitDecl false mac v d) (if mac then [] else [d]) d.names where
  keys := (h.declare hd false mac).uses _
  old := fun e he hda hf => uses_keeps' hi (paired_decl d) (h.declare hd false mac)
    (by rw [declare_dead]; exact List.mem_cons_of_mem _ he) hda hf
  new := by
    intro x hx hf
    cases mac with
    | true => cases hx
    | false =>
      have hx' : x = d := by simpa using hx
      subst hx'
      exact uses_keeps' hi (paired_decl x) (h.declare hd false false)
        (by rw [declare_dead]; exact List.mem_cons_self) hd hf

theorem visitParams_keep {v : VState} (h : Keys all v) {ds : List Decl} (hd : ∀ d ∈ ds, d ∈ all) :
    Keys all (ds.foldl (visitDecl true false) v) := by
  induction ds generalizing v with
  | nil => exact h
  | cons d ds ih =>
    exact ih ((h.declare (hd d List.mem_cons_self) true false).uses _) fun x hx => hd x (List.mem_cons_of_mem _ hx)

theorem visitFold_keep {v : VState} (h : Keys all v) {ds : List Decl} (hd : ∀ d ∈ ds, d ∈ all) (mac : Bool) :
    Keep all v (ds.foldl (visitDecl false mac) v) (if mac then [] else ds) (ds.flatMap Decl.names) := by
  induction ds generalizing v with
  | nil => exact ⟨h, fun e he _ _ => he, fun d hx => by cases mac <;> cases hx⟩
  | cons d ds ih =>
    have h1 := visitDecl_keep hi h (hd d List.mem_cons_self) mac
    have h2 := ih h1.keys fun x hx => hd x (List.mem_cons_of_mem _ hx)
    have h3 := h1.comp h2 (by
      intro x hx
      cases mac with
      | true => cases hx
      | false => exact (List.mem_singleton.1 (by simpa using hx) : x = d) ▸ hd d List.mem_cons_self)
    cases mac <;> simpa using h3

theorem visitDecls_keep {v : VState} (h : Keys all v) {ds : List Decl} (hd : ∀ d ∈ ds, d ∈ all) (mac : Bool) :
    Keep all v (visitDecls false mac v ds) (if mac then [] else ds) (ds.flatMap Decl.names) := by
  unfold visitDecls
  split
  · exact visitFold_keep hi h hd mac
  · have h' : Keys all { v with multi := ds.map (·.id) :: v.multi } := h
    have := visitFold_keep hi h' hd mac
    exact ⟨this.keys, this.old, this.new⟩

theorem visitExpr_keep {v : VState} (h : Keys all v) (inBlock : Bool) (e : Expr) :
    Keep all v (visitExpr inBlock v e).2 [] (touches inBlock (.expr () e)) := by
  cases e with
  | assign d r =>
    simp only [visitExpr, touches]
    by_cases hb : inBlock = true ∧ sideEffect r = false
    · obtain ⟨rfl, hr⟩ := hb
      simp only [hr, Bool.not_false, Bool.and_self, Bool.true_and, if_true, stmtReads]
      split
      · exact uses_keep hi h (paired_names r)
      · rename_i hh
        refine ⟨h.uses _, fun x hx hda hf => ?_, fun d hd => by cases hd⟩
        refine uses_keeps' hi (paired_names (.assign d r)) h hx hda fun n hn => ?_
        rcases List.mem_cons.1 hn with rfl | hn
        · intro hm
          refine hh ?_
          simp only [VState.has, List.any_eq_true, beq_iff_eq]
          exact ⟨x, hx, (owns_var hm).symm⟩
        · exact hf n hn
    · have hb' : ¬ ((inBlock && !sideEffect r) = true) := by simpa using hb
      rw [if_neg hb', if_neg]
      · exact uses_keep hi h (paired_names (.assign d r))
      · intro hx
        rw [Bool.and_eq_true] at hx
        exact hb' hx.1
  | _ =>
    simp only [visitExpr, touches, stmtReads, ite_self]
    exact uses_keep hi h (paired_names _)

/-- What is preserved by a visit of a statement. -/
theorem visit_keep {s : Stmt Unit} {v : VState} (h : Keys all v) (hd : ∀ d ∈ declsOf s, d ∈ all) (inBlock mac : Bool) :
    Keep all v (visit inBlock mac v s).2 (noMacro mac s) (touches inBlock s) := by
  have hnil : ∀ {v : VState}, Keys all v → Keep all v v [] [] := fun h =>
    ⟨h, fun e he _ _ => he, fun d hx => by cases hx⟩
  have hno : ∀ d ∈ ([] : List Decl), d ∈ all := fun d hx => by cases hx
  have hsub : ∀ {s : Stmt Unit} {mac : Bool}, (∀ d ∈ declsOf s, d ∈ all) → ∀ d ∈ noMacro mac s, d ∈ all :=
    fun hd d hx => hd d (noMacro_sub d hx)
  induction s generalizing v inBlock mac with
  | nop => exact hnil h
  | seq a b iha ihb =>
    have ha := iha h (fun d hx => hd d (List.mem_append_left _ hx)) inBlock mac
    exact ha.comp (ihb ha.keys (fun d hx => hd d (List.mem_append_right _ hx)) inBlock mac)
      (hsub fun d hx => hd d (List.mem_append_left _ hx))
  | expr m e => exact visitExpr_keep hi h inBlock e
  | decls ds => exact visitDecls_keep hi h hd mac
  | block m s ih => exact ih h hd true m
  | ite c a b iha ihb =>
    have hc := uses_keep hi h (paired_names c)
    have ha := iha hc.keys (fun d hx => hd d (List.mem_append_left _ hx)) false mac
    have hb := ihb ha.keys (fun d hx => hd d (List.mem_append_right _ hx)) false mac
    exact hc.comp (ha.comp hb (hsub fun d hx => hd d (List.mem_append_left _ hx))) hno
  | loop c s ih =>
    have hc := uses_keep hi h (paired_names c)
    exact hc.comp (ih hc.keys hd false mac) hno
  | loopFor m ds c i s ih =>
    have h1 := visitDecls_keep hi h (fun d hx => hd d (List.mem_append_left _ hx)) m
    have h2 := uses_keep hi h1.keys (paired_names c)
    have h3 := uses_keep hi h2.keys (paired_names i)
    have h4 := ih h3.keys (fun d hx => hd d (List.mem_append_right _ hx)) false m
    refine h1.comp (h2.comp (h3.comp h4 hno) hno) fun d hx => ?_
    cases m with
    | true => cases hx
    | false => exact hd d (List.mem_append_left _ (by simpa using hx))
  | each d a s ih =>
    have h1 := uses_keep hi h (ns := [.var a]) fun t ht => by simp at ht
    cases d with
    | none =>
      have h2 := h1.comp (ih h1.keys hd false mac) hno
      cases mac <;> exact h2
    | some d =>
      have h2 := visitDecl_keep hi h1.keys (hd d List.mem_cons_self) mac
      have h3 := ih h2.keys (fun x hx => hd x (List.mem_cons_of_mem _ hx)) false mac
      have h4 := h1.comp (h2.comp h3 (by
        intro x hx
        cases mac with
        | true => cases hx
        | false => exact (List.mem_singleton.1 (by simpa using hx) : x = d) ▸ hd d List.mem_cons_self)) hno
      cases mac <;> simpa [noMacro, touches, visit, VState.uses] using h4
  | ret e => exact uses_keep hi h (paired_names e)
  | brk => exact hnil h
  | cont => exact hnil h

end

theorem keepGroup_keeps {S : Nat → Prop} {dead g : List Nat} (h : ∀ x, S x → x ∈ dead)
    (hg : ∀ x ∈ g, S x → ∀ y ∈ g, S y) : ∀ x, S x → x ∈ keepGroup dead g := by
  intro x hx
  unfold keepGroup
  split
  · rename_i hany
    refine List.mem_filter.2 ⟨h x hx, ?_⟩
    simp only [List.any_eq_true, Bool.not_eq_true', List.contains_eq_mem, decide_eq_false_iff_not] at hany
    obtain ⟨y, hy, hny⟩ := hany
    simp only [List.contains_eq_mem, Bool.not_eq_true', decide_eq_false_iff_not]
    exact fun hxg => hny (h y (hg x hxg hx y hy))
  · exact h x hx

theorem keepGroups_keeps {S : Nat → Prop} {gs : List (List Nat)} {dead : List Nat} (h : ∀ x, S x → x ∈ dead)
    (hg : ∀ g ∈ gs, ∀ x ∈ g, S x → ∀ y ∈ g, S y) : ∀ x, S x → x ∈ gs.foldl keepGroup dead := by
  induction gs generalizing dead with
  | nil => exact h
  | cons g gs ih =>
    exact ih (keepGroup_keeps h (hg g List.mem_cons_self)) fun g' hg' => hg g' (List.mem_cons_of_mem _ hg')

/-- **Dead declarations are removed.** Consider a set of declarations which contains a group of declarations entirely if
it contains one of them.  If these declarations are not mentioned in the function except in assignments which may be
removed, there are no macros in their scopes, their initializers contain no calls, no assignments, no increments and no
decrements, then they are removed. -/
theorem eliminate_complete {G : List Name} {f : Func Unit} (h : f.Valid G) {S : Decl → Prop}
    (hS : ∀ d, S d → d ∈ noMacro false f.body ∧ (∀ e ∈ d.init, sideEffect e = false) ∧
      Name.var d.id ∉ f.params.flatMap Decl.names ++ touches false f.body ∧ f.Untouched d)
    (hg : ∀ g ∈ groups f.body, ∀ d ∈ g, S d → ∀ d' ∈ g, S d') : ∀ d, S d → d.id ∈ removed f := by
  have hu := h.uniq
  have hkeys : Keys f.decls {} := fun p hp => by cases hp
  have hk := visit_keep hu.ids (visitParams_keep hu.ids hkeys fun d hd => List.mem_append_left _ hd)
    (fun d hd => List.mem_append_right _ hd) false false (s := f.body)
  have hdead : ∀ d, S d → (⟨d, false, false⟩ : Entry) ∈ (visitFunc f).2.dead := by
    intro d hd
    obtain ⟨h1, -, h3, h4⟩ := hS d hd
    refine hk.new d h1 fun n hn hm => ?_
    rcases List.mem_cons.1 hm with rfl | hm
    · exact h3 (List.mem_append_right _ hn)
    · exact h4 n hm (List.mem_append_right _ hn)
  intro d hd
  refine keepGroups_keeps (S := fun x => ∃ d, S d ∧ d.id = x) ?_ ?_ _ ⟨d, hd, rfl⟩
  · rintro x ⟨d, hd, rfl⟩
    refine List.mem_map.2 ⟨⟨d, false, false⟩, List.mem_filter.2 ⟨hdead d hd, ?_⟩, rfl⟩
    simp only [allowed, Bool.not_false, Bool.and_true, Bool.true_and, Bool.not_eq_true']
    cases hi : d.init with
    | none => rfl
    | some e => exact (hS d hd).2.1 e hi
  · intro g hgm x hx hsx y hy
    have hm : (visitFunc f).2.multi = (bigGroups f.body).reverse := by
      rw [visitFunc, visit_multi, visitFold_multi, List.append_nil]
    rw [hm, List.mem_reverse] at hgm
    obtain ⟨ds, h1, rfl⟩ := List.mem_map.1 hgm
    have h2 := (List.mem_filter.1 h1).1
    obtain ⟨a, ha, rfl⟩ := List.mem_map.1 hx
    obtain ⟨b, hb, rfl⟩ := List.mem_map.1 hy
    obtain ⟨d', hd', heq⟩ := hsx
    have h3 : ∀ x ∈ ds, x ∈ f.decls := by
      intro x hx
      have aux : ∀ {s : Stmt Unit}, ∀ g ∈ groups s, ∀ d ∈ g, d ∈ declsOf s := by
        intro s
        induction s with
        | seq a b iha ihb =>
          intro g hg d hd
          rcases List.mem_append.1 hg with hg | hg
          · exact List.mem_append_left _ (iha g hg d hd)
          · exact List.mem_append_right _ (ihb g hg d hd)
        | decls ds => intro g hg d hd; rw [List.mem_singleton.1 hg] at hd; exact hd
        | block m s ih => exact ih
        | ite c a b iha ihb =>
          intro g hg d hd
          rcases List.mem_append.1 hg with hg | hg
          · exact List.mem_append_left _ (iha g hg d hd)
          · exact List.mem_append_right _ (ihb g hg d hd)
        | loop c s ih => exact ih
        | loopFor m ds c i s ih =>
          intro g hg d hd
          rcases List.mem_cons.1 hg with rfl | hg
          · exact List.mem_append_left _ hd
          · exact List.mem_append_right _ (ih g hg d hd)
        | each d a s ih =>
          cases d with
          | none => exact ih
          | some d => exact fun g hg x hx => List.mem_cons_of_mem _ (ih g hg x hx)
        | _ => intro g hg; cases hg
      exact List.mem_append_right _ (aux ds h2 x hx)
    have h4 : d' = a := hu.ids _ (List.mem_append_right _ (noMacro_sub _ (hS d' hd').1)) _ (h3 a ha) heq
    exact ⟨b, hg ds h2 a ha (h4 ▸ hd') b hb, rfl⟩

end DeadDecls
end Tsar
