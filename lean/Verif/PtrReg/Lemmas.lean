import Verif.PtrReg.Model
import Mathlib.Data.List.Nodup

/-!
# Auxiliary facts about promotion
-/

namespace Tsar.PtrReg

variable {R : Type}

/-! ### Paths -/

theorem Path.split {l : Loop R} {π : List Lab} {b c : Lab} (h : Path l π b) (hc : c ∈ π) :
    ∃ π', Path l π' c ∧ π'.length < π.length ∧ ∀ x ∈ π', x ∈ π := by
  induction h with
  | nil => simp at hc
  | @snoc π b d h hb hd ih =>
    simp only [List.mem_append, List.mem_singleton] at hc
    rcases hc with hc | rfl
    · obtain ⟨π', h1, h2, h3⟩ := ih hc
      exact ⟨π', h1, by simp; omega, fun x hx => by simp [h3 x hx]⟩
    · exact ⟨π, h, by simp, fun x hx => by simp [hx]⟩

theorem Path.blocks {l : Loop R} {π : List Lab} {b : Lab} (h : Path l π b) :
    ∀ c ∈ π, c ∈ l.blocks := by
  induction h with
  | nil => simp
  | @snoc π b c h hb hc ih =>
    intro x hx
    simp only [List.mem_append, List.mem_singleton] at hx
    rcases hx with hx | rfl
    · exact ih x hx
    · exact hb

/-- Two blocks do not dominate each other. -/
theorem no_mutual {l : Loop R} {b c : Lab} (hb : ∀ π, Path l π b → c ∈ π)
    (hc : ∀ π, Path l π c → b ∈ π) : ∀ π, ¬ Path l π b := by
  suffices ∀ n π, π.length = n → ¬ Path l π b from fun π => this _ π rfl
  intro n
  induction n using Nat.strongRecOn with
  | ind n ih =>
    intro π hn h
    obtain ⟨π1, h1, l1, -⟩ := h.split (hb π h)
    obtain ⟨π2, h2, l2, -⟩ := h1.split (hc π1 h1)
    exact ih π2.length (by omega) π2 rfl h2

/-! ### Definitions -/

theorem site {l : Loop R} (w : Base l) {b c : Lab} {x : Var}
    (hb : b ∈ l.blocks) (hc : c ∈ l.blocks) (h1 : x ∈ (l.blk b).defs)
    (h2 : x ∈ (l.blk c).defs) : b = c := by
  by_contra hne
  have hs := w.ssa
  rw [List.nodup_flatMap] at hs
  have hp := hs.2
  clear hs
  generalize l.blocks = bs at hp hb hc
  induction hp with
  | nil => simp at hb
  | @cons a bs ha _ ih =>
    rcases List.mem_cons.1 hb with e1 | e1 <;> rcases List.mem_cons.1 hc with e2 | e2
    · exact hne (e1.trans e2.symm)
    · subst e1; exact ha c e2 h1 h2
    · subst e2; exact ha b e1 h2 h1
    · exact ih e1 e2

theorem defs_nodup {l : Loop R} (w : Base l) {b : Lab}
    (hb : b ∈ l.blocks) : (l.blk b).defs.Nodup := by
  have hs := w.ssa
  rw [List.nodup_flatMap] at hs
  exact hs.1 b hb

theorem mem_defs_inst {l : Loop R} {b : Lab} {i : Nat} {a : Inst R} {x : Var}
    (h : (l.blk b).insts[i]? = some a) (hx : a.res = some x) : x ∈ (l.blk b).defs := by
  simp only [Blk.defs, List.mem_append, List.mem_filterMap]
  exact .inr ⟨a, List.mem_of_getElem? h, hx⟩

theorem not_take {l : Loop R} (w : Base l) {b : Lab} (hb : b ∈ l.blocks)
    {i : Nat} {a : Inst R} {x : Var} (h : (l.blk b).insts[i]? = some a) (hx : a.res = some x) :
    x ∉ ((l.blk b).insts.take i).filterMap Inst.res := by
  intro hm
  have hn := defs_nodup w hb
  have hn' := (List.nodup_append.1 hn).2.1
  obtain ⟨hi, rfl⟩ := List.getElem?_eq_some_iff.1 h
  have e : (l.blk b).insts = (l.blk b).insts.take i ++ (l.blk b).insts[i] ::
      (l.blk b).insts.drop (i + 1) := by
    rw [← List.drop_eq_getElem_cons hi, List.take_append_drop]
  rw [e, List.filterMap_append, List.nodup_append] at hn'
  exact hn'.2.2 x hm x (List.mem_filterMap.2 ⟨_, List.mem_cons_self, hx⟩) rfl

theorem not_phi {l : Loop R} (w : Base l) {b : Lab} (hb : b ∈ l.blocks)
    {x : Var} (h : x ∈ (l.blk b).insts.filterMap Inst.res) :
    x ∉ (l.blk b).phis.map Prod.fst := by
  intro hm
  have hn := defs_nodup w hb
  exact (List.nodup_append.1 hn).2.2 x hm x h rfl

theorem take_lt {l : Loop R} (w : Base l) {b : Lab} (hb : b ∈ l.blocks)
    {i j : Nat} {a : Inst R} {x : Var} (h : (l.blk b).insts[j]? = some a) (hx : a.res = some x)
    (hm : x ∈ ((l.blk b).insts.take i).filterMap Inst.res) : j < i := by
  by_contra hlt
  apply not_take w hb h hx
  rw [List.mem_filterMap] at hm ⊢
  obtain ⟨y, hy, e⟩ := hm
  refine ⟨y, ?_, e⟩
  exact (List.take_subset_take_left _ (by omega)) hy

/-- A definition of `x` in `b` is not on each path to `b`. -/
theorem not_availIn {l : Loop R} (w : Base l) {b : Lab}
    (hb : b ∈ l.blocks) {x : Var} (h : x ∈ (l.blk b).defs) : ¬ AvailIn l b x := by
  rintro (h' | h')
  · exact h' b hb h
  · obtain ⟨π, hπ⟩ := w.reach b hb
    refine no_mutual (b := b) (c := b) ?_ ?_ π hπ <;>
    · intro π hπ
      obtain ⟨c, hc, hx⟩ := h' π hπ
      rwa [site w hb (hπ.blocks c hc) h hx]

theorem not_avail {l : Loop R} (w : Base l) {b : Lab} (hb : b ∈ l.blocks)
    {i : Nat} {a : Inst R} {x : Var} (h : (l.blk b).insts[i]? = some a) (hx : a.res = some x) :
    ¬ Avail l b i x := by
  rintro (h' | h' | h')
  · exact not_availIn w hb (mem_defs_inst h hx) h'
  · refine not_phi w hb ?_ h'
    rw [List.mem_filterMap]
    exact ⟨a, List.mem_of_getElem? h, hx⟩
  · exact not_take w hb h hx h'

theorem Avail.mono {l : Loop R} {b : Lab} {i j : Nat} {x : Var} (h : Avail l b i x)
    (hij : i ≤ j) : Avail l b j x := by
  rcases h with h | h | h
  · exact .inl h
  · exact .inr (.inl h)
  · refine .inr (.inr ?_)
    rw [List.mem_filterMap] at h ⊢
    obtain ⟨y, hy, e⟩ := h
    exact ⟨y, (List.take_subset_take_left _ hij) hy, e⟩

theorem Avail.toEnd {l : Loop R} {b : Lab} {i : Nat} {x : Var} (h : Avail l b i x) :
    AvailEnd l b x := by
  rcases h with h | h | h
  · exact .inl h
  · exact .inr (by simp only [Blk.defs, List.mem_append]; exact .inl h)
  · refine .inr ?_
    simp only [Blk.defs, List.mem_append]
    rw [List.mem_filterMap] at h
    obtain ⟨y, hy, e⟩ := h
    exact .inr (List.mem_filterMap.2 ⟨y, List.mem_of_mem_take hy, e⟩)

theorem availEnd_iff {l : Loop R} {b : Lab} {x : Var} :
    AvailEnd l b x ↔ Avail l b (l.blk b).insts.length x := by
  simp [AvailEnd, Avail, Blk.defs]

/-- All paths to `b` which contains a definition of an available value. -/
theorem availIn_path {l : Loop R} (w : Base l) {b c : Lab} {x : Var}
    (hc : c ∈ l.blocks) (hx : x ∈ (l.blk c).defs) (h : AvailIn l b x) :
    ∀ π, Path l π b → c ∈ π := by
  intro π hπ
  rcases h with h | h
  · exact absurd hx (h c hc)
  · obtain ⟨d, hd, hx'⟩ := h π hπ
    rwa [site w hc (hπ.blocks d hd) hx hx']

/-! ### Depth-first traversal -/

section Dfs

variable {S : Type} (l : Loop R) (done : S → Lab → Bool) (visit : S → Lab → S)
  (edge : S → Lab → Lab → S)

def undone (s : S) : Nat := (l.blocks.filter fun b => !done s b).length

variable {l done visit edge}

theorem undone_le {s r : S} (h : ∀ x, done s x = true → done r x = true) :
    undone l done r ≤ undone l done s := by
  unfold undone
  rw [← List.countP_eq_length_filter, ← List.countP_eq_length_filter]
  apply List.countP_mono_left
  intro x _ hx
  cases hs : done s x with
  | false => rfl
  | true => rw [h x hs] at hx; simp at hx

theorem undone_lt {s r : S} {b : Lab} (hb : b ∈ l.blocks) (h : ∀ x, done s x = true → done r x = true)
    (h1 : done s b = false) (h2 : done r b = true) : undone l done r < undone l done s := by
  unfold undone
  generalize l.blocks = bs at hb ⊢
  induction bs with
  | nil => simp at hb
  | cons c bs ih =>
    have hle : (bs.filter fun b => !done r b).length ≤ (bs.filter fun b => !done s b).length := by
      rw [← List.countP_eq_length_filter, ← List.countP_eq_length_filter]
      apply List.countP_mono_left
      intro x _ hx
      cases hs : done s x with
      | false => rfl
      | true => rw [h x hs] at hx; simp at hx
    by_cases hbc : b = c
    · subst hbc
      simp only [List.filter_cons, h1, h2]
      simp; omega
    · have := ih (by simpa [hbc] using hb)
      simp only [List.filter_cons]
      cases hs : done s c with
      | false => cases hr : done r c <;> simp <;> omega
      | true => simp [h c hs]; exact this

/-- Requirements to actions of a traversal: `I` is an invariant, `K` means that an
edge has been processed. -/
structure DfsOK (l : Loop R) (done : S → Lab → Bool) (visit : S → Lab → S)
    (edge : S → Lab → Lab → S) (I : S → Prop) (K : S → Lab → Lab → Prop) : Prop where
  dv : ∀ s b x, done (visit s b) x = true ↔ x = b ∨ done s x = true
  de : ∀ s b c x, done (edge s b c) x = done s x
  iv : ∀ s b, I s → b ∈ l.blocks → done s b = false →
    (∃ π, Path l π b ∧ ∀ c ∈ π, done s c = true) → I (visit s b)
  ie : ∀ s b c, I s → b ∈ l.blocks → done s b = true → c ∈ (l.blk b).succs → c ∉ l.blocks →
    I (edge s b c)
  kv : ∀ s b c d, I s → b ∈ l.blocks → done s b = false → c ∈ l.blocks → done s c = true →
    d ∈ (l.blk c).succs → K s c d → K (visit s b) c d
  ke : ∀ s b e c d, I s → b ∈ l.blocks → done s b = true → e ∈ (l.blk b).succs → e ∉ l.blocks →
    c ∈ l.blocks → done s c = true → d ∈ (l.blk c).succs → K s c d → K (edge s b e) c d
  kin : ∀ s b c, c ∈ l.blocks → (K s b c ↔ done s c = true)
  kout : ∀ s b c, I s → b ∈ l.blocks → done s b = true → c ∈ (l.blk b).succs → c ∉ l.blocks →
    K (edge s b c) b c

/-- Results of a traversal which starts in a state `s` and stops in a state `r`. -/
structure DfsRes (l : Loop R) (done : S → Lab → Bool) (I : S → Prop) (K : S → Lab → Lab → Prop)
    (s r : S) : Prop where
  inv : I r
  mono : ∀ x, done s x = true → done r x = true
  keep : ∀ c ∈ l.blocks, done s c = true → ∀ d ∈ (l.blk c).succs, K s c d → K r c d
  new : ∀ c ∈ l.blocks, done r c = true → done s c = true ∨ ∀ d ∈ (l.blk c).succs, K r c d

theorem DfsRes.refl {I : S → Prop} {K : S → Lab → Lab → Prop} {s : S} (h : I s) :
    DfsRes l done I K s s := ⟨h, fun _ h => h, fun _ _ _ _ _ h => h, fun _ _ h => .inl h⟩

theorem DfsRes.trans {I : S → Prop} {K : S → Lab → Lab → Prop} {s r t : S}
    (h : DfsRes l done I K s r) (h' : DfsRes l done I K r t) : DfsRes l done I K s t := by
  refine ⟨h'.inv, fun x hx => h'.mono x (h.mono x hx),
    fun c hc hd d hs k => h'.keep c hc (h.mono c hd) d hs (h.keep c hc hd d hs k), ?_⟩
  intro c hc hd
  rcases h'.new c hc hd with h1 | h1
  · rcases h.new c hc h1 with h2 | h2
    · exact .inl h2
    · exact .inr fun d hs => h'.keep c hc h1 d hs (h2 d hs)
  · exact .inr h1

theorem dfs_res {I : S → Prop} {K : S → Lab → Lab → Prop} (ok : DfsOK l done visit edge I K) :
    ∀ n s b, b ∈ l.blocks → I s → (∃ π, Path l π b ∧ ∀ c ∈ π, done s c = true) →
      undone l done s < n →
      DfsRes l done I K s (dfs l done visit edge n s b) ∧
        done (dfs l done visit edge n s b) b = true := by
  intro n
  induction n with
  | zero => intro s b _ _ _ h; omega
  | succ n ih =>
    intro s b hb hI hπ hu
    unfold dfs
    cases hd : done s b with
    | true => simp only [if_true]; exact ⟨.refl hI, hd⟩
    | false =>
      simp only [Bool.false_eq_true, if_false]
      have hI1 := ok.iv s b hI hb hd hπ
      have hm1 : ∀ x, done s x = true → done (visit s b) x = true :=
        fun x hx => (ok.dv s b x).2 (.inr hx)
      have hb1 : done (visit s b) b = true := (ok.dv s b b).2 (.inl rfl)
      have hu1 : undone l done (visit s b) < n := by
        have := undone_lt hb hm1 hd hb1
        omega
      obtain ⟨π, hπ, hπd⟩ := hπ
      have fold : ∀ (ds : List Lab) (s' : S), (∀ d ∈ ds, d ∈ (l.blk b).succs) → I s' →
          (∀ x, done (visit s b) x = true → done s' x = true) → undone l done s' < n →
          DfsRes l done I K s' (ds.foldl (fun s c => if c ∈ l.blocks then
            dfs l done visit edge n s c else edge s b c) s') ∧
          ∀ d ∈ ds, K (ds.foldl (fun s c => if c ∈ l.blocks then
            dfs l done visit edge n s c else edge s b c) s') b d := by
        intro ds
        induction ds with
        | nil => intro s' _ hI' _ _; exact ⟨.refl hI', by simp⟩
        | cons d ds ihd =>
          intro s' hds hI' hm' hu'
          have hdb := hds d (by simp)
          simp only [List.foldl_cons]
          have one : DfsRes l done I K s' (if d ∈ l.blocks then dfs l done visit edge n s' d
              else edge s' b d) ∧ K (if d ∈ l.blocks then dfs l done visit edge n s' d
              else edge s' b d) b d := by
            by_cases hdl : d ∈ l.blocks
            · simp only [hdl, if_true]
              obtain ⟨r1, r2⟩ := ih s' d hdl hI' ⟨π ++ [b], .snoc hπ hb hdb, by
                intro c hc
                simp only [List.mem_append, List.mem_singleton] at hc
                rcases hc with hc | rfl
                · exact hm' c (hm1 c (hπd c hc))
                · exact hm' c hb1⟩ hu'
              exact ⟨r1, (ok.kin _ b d hdl).2 r2⟩
            · simp only [hdl, if_false]
              refine ⟨⟨ok.ie s' b d hI' hb (hm' b hb1) hdb hdl, fun x hx => by
                rw [ok.de]; exact hx, fun c hc hcd e he k => ok.ke s' b d c e hI' hb (hm' b hb1) hdb
                  hdl hc hcd he k, fun c hc hcd => .inl (by rw [ok.de] at hcd; exact hcd)⟩,
                ok.kout s' b d hI' hb (hm' b hb1) hdb hdl⟩
          have hle := undone_le (l := l) one.1.mono
          obtain ⟨r1, r2⟩ := ihd _ (fun x hx => hds x (by simp [hx])) one.1.inv
            (fun x hx => one.1.mono x (hm' x hx)) (by omega)
          refine ⟨one.1.trans r1, ?_⟩
          intro x hx
          rcases List.mem_cons.1 hx with rfl | hx
          · exact r1.keep b hb (one.1.mono b (hm' b hb1)) x hdb one.2
          · exact r2 x hx
      obtain ⟨r1, r2⟩ := fold (l.blk b).succs (visit s b) (fun _ h => h) hI1 (fun _ h => h) hu1
      refine ⟨⟨r1.inv, fun x hx => r1.mono x (hm1 x hx), ?_, ?_⟩, r1.mono b hb1⟩
      · intro c hc hcd d hs k
        exact r1.keep c hc (hm1 c hcd) d hs (ok.kv s b c d hI hb hd hc hcd hs k)
      · intro c hc hcd
        rcases r1.new c hc hcd with h | h
        · rcases (ok.dv s b c).1 h with rfl | h
          · exact .inr r2
          · exact .inl h
        · exact .inr h

/-- The whole traversal visits all blocks and processes all edges. -/
theorem dfs_all {I : S → Prop} {K : S → Lab → Lab → Prop} {used : Var → Bool} (w : WF l used)
    (ok : DfsOK l done visit edge I K) {s : S} (hI : I s) (h0 : ∀ b, done s b = false) :
    let r := dfs l done visit edge (l.blocks.length + 1) s l.header
    I r ∧ (∀ b ∈ l.blocks, done r b = true) ∧
      ∀ b ∈ l.blocks, ∀ c ∈ (l.blk b).succs, K r b c := by
  intro r
  have hu : undone l done s < l.blocks.length + 1 := by
    unfold undone
    exact Nat.lt_succ_of_le (List.length_filter_le _ _)
  obtain ⟨r1, r2⟩ := dfs_res ok _ s l.header w.header hI ⟨[], .nil, by simp⟩ hu
  have hnew : ∀ c ∈ l.blocks, done r c = true → ∀ d ∈ (l.blk c).succs, K r c d := by
    intro c hc hcd
    rcases r1.new c hc hcd with h | h
    · rw [h0] at h; simp at h
    · exact h
  have hall : ∀ π b, Path l π b → b ∈ l.blocks → done r b = true := by
    intro π b hp
    induction hp with
    | nil => intro _; exact r2
    | @snoc π b c hp hb hc ih =>
      intro hcb
      exact (ok.kin _ b c hcb).1 (hnew b hb (ih hb) c hc)
  have hall' : ∀ b ∈ l.blocks, done r b = true := by
    intro b hb
    obtain ⟨π, hp⟩ := w.reach b hb
    exact hall π b hp hb
  exact ⟨r1.inv, hall', fun b hb => hnew b hb (hall' b hb)⟩

end Dfs

/-! ### Predecessors -/

theorem le_sum {f : Lab → Nat} {bs : List Lab} {a : Lab} (ha : a ∈ bs) :
    f a ≤ (bs.map f).sum := by
  induction bs with
  | nil => simp at ha
  | cons c bs ih =>
    simp only [List.map_cons, List.sum_cons]
    rcases List.mem_cons.1 ha with rfl | ha'
    · omega
    · have := ih ha'; omega

theorem sum_two {f : Lab → Nat} {bs : List Lab} {a b : Lab} (hn : bs.Nodup) (ha : a ∈ bs)
    (hb : b ∈ bs) (hne : a ≠ b) : f a + f b ≤ (bs.map f).sum := by
  induction bs with
  | nil => simp at ha
  | cons c bs ih =>
    simp only [List.nodup_cons] at hn
    simp only [List.map_cons, List.sum_cons]
    rcases List.mem_cons.1 ha with h1 | h1 <;> rcases List.mem_cons.1 hb with h2 | h2
    · exact absurd (h1.trans h2.symm) hne
    · have := le_sum (f := f) h2; subst h1; omega
    · have := le_sum (f := f) h1; subst h2; omega
    · have := ih hn.2 h1 h2; omega

/-- A block with a single predecessor which is in a loop. -/
def Single (l : Loop R) (b : Lab) : Prop := predSize l b = 1 ∧ singlePred l b ∈ l.blocks

theorem singlePred_succ {l : Loop R} {b : Lab} (hp : l.pre ∉ l.blocks) (h : Single l b) :
    b ∈ (l.blk (singlePred l b)).succs := by
  obtain ⟨-, h2⟩ := h
  unfold singlePred at h2 ⊢
  cases hf : l.blocks.find? fun c => b ∈ (l.blk c).succs with
  | none => rw [hf] at h2; exact absurd h2 hp
  | some c =>
    have := List.find?_some hf
    simpa using this

theorem single_pred {l : Loop R} {used : Var → Bool} (w : WF l used) {b c : Lab}
    (h : Single l b) (hc : c ∈ l.blocks) (hs : b ∈ (l.blk c).succs) : c = singlePred l b := by
  by_contra hne
  have h1 := singlePred_succ w.pre h
  have h2 := sum_two (f := fun c => (l.blk c).succs.count b) w.nodup hc h.2 hne
  have h3 := List.count_pos_iff.2 hs
  have h4 := List.count_pos_iff.2 h1
  have h5 := h.1
  unfold predSize at h5
  omega

theorem single_ne {l : Loop R} {used : Var → Bool} (w : WF l used) {b : Lab}
    (h : Single l b) : b ≠ l.header := by
  rintro rfl
  have h1 := singlePred_succ w.pre h
  have h4 := List.count_pos_iff.2 h1
  have h5 := h.1
  have h6 : (l.blk (singlePred l l.header)).succs.count l.header ≤
      (l.blocks.map fun c => (l.blk c).succs.count l.header).sum :=
    le_sum (f := fun c => (l.blk c).succs.count l.header) h.2
  unfold predSize at h5
  simp only [if_true] at h5
  omega

theorem path_single {l : Loop R} {used : Var → Bool} (w : WF l used) {π : List Lab} {b : Lab}
    (h : Single l b) (hπ : Path l π b) :
    ∃ π', π = π' ++ [singlePred l b] ∧ Path l π' (singlePred l b) := by
  cases hπ with
  | nil => exact absurd rfl (single_ne w h)
  | @snoc π c _ hp hb hc =>
    rw [← single_pred w h hb hc]
    exact ⟨π, rfl, hp⟩

/-! ### Links -/

theorem links_spec {l : Loop R} {used : Var → Bool} (w : WF l used) :
    ∀ b ∈ l.blocks, insertPhiNodes l b = some b ↔ ¬ Single l b := by
  have ok : DfsOK l (fun (k : Links) b => (k b).isSome) (linkBlock l) (fun k _ _ => k)
      (fun k => (∀ b r, k b = some r → (k r).isSome = true) ∧
        ∀ b ∈ l.blocks, (k b).isSome = true → (k b = some b ↔ ¬ Single l b))
      (fun k _ d => d ∈ l.blocks → (k d).isSome = true) := by
    refine ⟨?_, fun _ _ _ _ => rfl, ?_, fun _ _ _ h _ _ _ _ => h, ?_, fun _ _ _ _ _ _ _ _ _ _ _ _ _ h => h,
      fun s b c hc => ⟨fun h => h hc, fun h _ => h⟩, fun _ _ _ _ _ _ _ h h' => absurd h' h⟩
    · intro s b x
      simp only [linkBlock]
      by_cases hx : x = b
      · subst hx
        simp only [Function.update_self, true_or, iff_true]
        split
        · split
          · split <;> simp
          · simp
        · simp
      · simp [Function.update_of_ne hx, hx]
    · rintro s b ⟨i1, i2⟩ hb hd ⟨π, hπ, hπd⟩
      have key : ∃ r, (linkBlock l s b) b = some r ∧ (r = b ↔ ¬ Single l b) ∧
          (r = b ∨ (s r).isSome = true) := by
        simp only [linkBlock, Function.update_self]
        by_cases hs : Single l b
        · rw [if_pos hs.1, if_pos hs.2]
          obtain ⟨π', rfl, -⟩ := path_single w hs hπ
          have hp := hπd (singlePred l b) (by simp)
          obtain ⟨r, hr⟩ := Option.isSome_iff_exists.1 hp
          rw [hr]
          have hrs := i1 _ r hr
          refine ⟨r, rfl, ?_, .inr hrs⟩
          constructor
          · rintro rfl; rw [hd] at hrs; simp at hrs
          · intro h; exact absurd hs h
        · refine ⟨b, ?_, by simp [hs], .inl rfl⟩
          by_cases h1 : predSize l b = 1
          · rw [if_pos h1]
            have : singlePred l b ∉ l.blocks := fun h => hs ⟨h1, h⟩
            simp [this]
          · rw [if_neg h1]
      obtain ⟨r, k1, k2, k3⟩ := key
      have other : ∀ x, x ≠ b → linkBlock l s b x = s x := by
        intro x hx; simp [linkBlock, Function.update_of_ne hx]
      have some' : ∀ x, (s x).isSome = true → (linkBlock l s b x).isSome = true := by
        intro x hx
        by_cases hxb : x = b
        · subst hxb; rw [k1]; rfl
        · rw [other x hxb]; exact hx
      refine ⟨?_, ?_⟩
      · intro x y hxy
        by_cases hx : x = b
        · subst hx
          rw [k1, Option.some.injEq] at hxy
          subst hxy
          rcases k3 with rfl | k3
          · rw [k1]; rfl
          · exact some' _ k3
        · rw [other x hx] at hxy
          exact some' _ (i1 x y hxy)
      · intro x hx hxs
        by_cases hxb : x = b
        · subst hxb
          rw [k1, Option.some.injEq]; exact k2
        · rw [other x hxb] at hxs ⊢
          exact i2 x hx hxs
    · intro s b c d _ hb hd _ _ _ h hdl
      by_cases hdb : d = b
      · subst hdb
        simp only [linkBlock, Function.update_self]
        split
        · split
          · split <;> simp
          · simp
        · simp
      · simp only [linkBlock, Function.update_of_ne hdb]
        exact h hdl
  have := dfs_all w ok (s := fun _ => none) ⟨by simp, by simp⟩ (fun _ => rfl)
  intro b hb
  exact this.1.2 b hb (this.2.1 b hb)

end Tsar.PtrReg
