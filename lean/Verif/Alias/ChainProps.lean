import Verif.Alias.ChainInv

/-!
# Properties of chains of estimate memory
-/

namespace Tsar
namespace Alias
namespace Chain

/-! ## Linked lists -/

/-- A list of nodes is a chain of the heap. -/
def Linked (h : Heap) : List Nat → Prop
  | [] => True
  | [x] => h.next x = none
  | x :: y :: l => h.next x = some y ∧ Linked h (y :: l)

theorem Linked.tail {h : Heap} {x : Nat} {l : List Nat} (H : Linked h (x :: l)) : Linked h l := by
  cases l with
  | nil => trivial
  | cons y l => exact H.2

theorem Linked.walk {h : Heap} : ∀ {l : List Nat} {c n : Nat}, Linked h (c :: l) → l.length ≤ n → h.walk n c = c :: l := by
  intro l
  induction l with
  | nil =>
    intro c n H _
    cases n with
    | zero => rfl
    | succ n => simp only [Heap.walk, show h.next c = none from H]
  | cons y l ih =>
    intro c n H hn
    cases n with
    | zero => simp at hn
    | succ n =>
      simp only [Heap.walk, H.1]
      rw [ih H.2 (by simpa using hn)]

theorem Linked.congr {h h' : Heap} : ∀ {l : List Nat}, Linked h l → (∀ x ∈ l, h'.next x = h.next x) → Linked h' l := by
  intro l
  induction l with
  | nil => intro _ _; trivial
  | cons x l ih =>
    intro H hx
    cases l with
    | nil =>
      show h'.next x = none
      rw [hx x List.mem_cons_self]; exact H
    | cons y l =>
      exact ⟨by rw [hx x List.mem_cons_self]; exact H.1, ih H.2 fun z hz => hx z (List.mem_cons_of_mem _ hz)⟩

theorem Linked.next_mem {h : Heap} : ∀ {l : List Nat} {x z : Nat}, Linked h l → x ∈ l → h.next x = some z → z ∈ l.tail := by
  intro l
  induction l with
  | nil => intro x z _ hx; simp at hx
  | cons a l ih =>
    intro x z H hx hz
    cases l with
    | nil =>
      have hxa := List.mem_singleton.1 hx
      subst hxa
      rw [show h.next x = none from H] at hz
      cases hz
    | cons y l =>
      rcases List.mem_cons.1 hx with rfl | hx
      · rw [H.1] at hz
        simp only [Option.some.injEq] at hz
        subst hz
        exact List.mem_cons_self
      · exact List.mem_cons_of_mem _ (ih H.2 hx hz)

theorem Linked.unique {h : Heap} : ∀ {l : List Nat} {x y z : Nat}, Linked h l → l.Nodup → x ∈ l → y ∈ l →
    h.next x = some z → h.next y = some z → x = y := by
  intro l
  induction l with
  | nil => intro x y z _ _ hx; simp at hx
  | cons a l ih =>
    intro x y z H hnd hx hy hxz hyz
    cases l with
    | nil => rw [List.mem_singleton.1 hx, List.mem_singleton.1 hy]
    | cons b l =>
      obtain ⟨-, hnd'⟩ := List.nodup_cons.1 hnd
      have hb : ∀ w ∈ b :: l, h.next w ≠ some b := by
        intro w hw hwb
        have := H.2.next_mem hw hwb
        exact (List.nodup_cons.1 hnd').1 this
      have ha := H.1
      rcases List.mem_cons.1 hx with rfl | hx'
      · rcases List.mem_cons.1 hy with rfl | hy'
        · rfl
        · rw [ha] at hxz
          exact absurd (hxz ▸ hyz) (hb y hy')
      · rcases List.mem_cons.1 hy with rfl | hy'
        · rw [ha] at hyz
          exact absurd (hyz ▸ hxz) (hb x hx')
        · exact ih H.2 hnd' hx' hy' hxz hyz

/-- The next node of the last one. -/
theorem Linked.last {h : Heap} : ∀ {l : List Nat} {c : Nat}, Linked h l → l.getLast? = some c → h.next c = none := by
  intro l
  induction l with
  | nil => intro c _ hc; simp at hc
  | cons a l ih =>
    intro c H hc
    cases l with
    | nil =>
      simp only [List.getLast?_singleton, Option.some.injEq] at hc
      subst hc; exact H
    | cons y l => exact ih H.2 (by simpa [List.getLast?_cons_cons] using hc)

/-- A node is added to the end. -/
theorem Linked.append {h h' : Heap} {f : Nat} : ∀ {l : List Nat} {c : Nat}, Linked h l → l.getLast? = some c → l.Nodup →
    (∀ x ∈ l, x ≠ c → h'.next x = h.next x) → h'.next c = some f → h'.next f = none → Linked h' (l ++ [f]) := by
  intro l
  induction l with
  | nil => intro c _ hc; simp at hc
  | cons a l ih =>
    intro c H hc hnd hx hcf hf
    cases l with
    | nil =>
      simp only [List.getLast?_singleton, Option.some.injEq] at hc
      subst hc
      exact ⟨hcf, hf⟩
    | cons y l =>
      have hc' : (y :: l).getLast? = some c := by simpa [List.getLast?_cons_cons] using hc
      have hac : a ≠ c := fun e => (List.nodup_cons.1 hnd).1 (e ▸ List.mem_of_getLast? hc')
      exact ⟨by rw [hx a List.mem_cons_self hac]; exact H.1,
        ih H.2 hc' (List.nodup_cons.1 hnd).2 (fun z hz => hx z (List.mem_cons_of_mem _ hz)) hcf hf⟩

/-- A node is added before a specified one. -/
theorem Linked.insert {h h' : Heap} {f u : Nat} {b : List Nat} : ∀ {a : List Nat}, Linked h (a ++ u :: b) →
    (∀ x ∈ a ++ u :: b, h.next x ≠ some u → h'.next x = h.next x) →
    (∀ x ∈ a ++ u :: b, h.next x = some u → h'.next x = some f) → h'.next f = some u → (a ++ u :: b).Nodup →
    Linked h' (a ++ f :: u :: b) := by
  intro a
  induction a with
  | nil =>
    intro H h1 _ h3 hnd
    refine ⟨h3, H.congr fun x hx => h1 x hx fun hc => ?_⟩
    have := H.next_mem hx hc
    exact (List.nodup_cons.1 hnd).1 this
  | cons x a ih =>
    intro H h1 h2 h3 hnd
    have ih' := ih H.tail (fun z hz => h1 z (List.mem_cons_of_mem _ hz)) (fun z hz => h2 z (List.mem_cons_of_mem _ hz)) h3
      (List.nodup_cons.1 hnd).2
    cases a with
    | nil => exact ⟨h2 x List.mem_cons_self H.1, ih'⟩
    | cons y a =>
      refine ⟨?_, ih'⟩
      rw [h1 x List.mem_cons_self]
      · exact H.1
      · rw [H.1]
        simp only [ne_eq, Option.some.injEq]
        rintro rfl
        have := (List.nodup_cons.1 (List.nodup_cons.1 hnd).2).1
        exact this (List.mem_append.2 (.inr List.mem_cons_self))

/-! ## The invariant -/

/-- `C b` is the list of all nodes with the base `b`. -/
structure Inv (t : Tree) (C : Nat → List Nat) : Prop where
  pc : PC t.heap
  bound : ∀ m p, t.heap.par m = some p → m < t.fresh ∧ p < t.fresh
  base_lt : ∀ m, m < t.fresh → t.heap.base m < t.freshBase
  mem : ∀ b, b < t.freshBase → ∀ m, m ∈ C b ↔ m < t.fresh ∧ t.heap.base m = b
  ne : ∀ b, b < t.freshBase → C b ≠ []
  linked : ∀ b, b < t.freshBase → Linked t.heap (C b)
  sorted : ∀ b, b < t.freshBase → (C b).Pairwise fun x y => sizecmp (t.heap.size x) (t.heap.size y) < 0
  begins : ∀ k, ∀ c ∈ t.begins k, c < t.fresh ∧ (C (t.heap.base c)).head? = some c
  key : ∀ k k' c c', c ∈ t.begins k → c' ∈ t.begins k' → t.heap.base c = t.heap.base c' → k = k'
  all : ∀ b, b < t.freshBase → ∃ k, ∃ c ∈ t.begins k, t.heap.base c = b

theorem Inv.empty : Inv Tree.empty fun _ => [] :=
  ⟨⟨by simp [Tree.empty], by simp [Tree.empty]⟩, by simp [Tree.empty], by simp [Tree.empty], by simp [Tree.empty],
    by simp [Tree.empty], by simp [Tree.empty], by simp [Tree.empty], by simp [Tree.empty], by simp [Tree.empty],
    by simp [Tree.empty]⟩

theorem Inv.nodup {t : Tree} {C : Nat → List Nat} (I : Inv t C) {b : Nat} (hb : b < t.freshBase) : (C b).Nodup := by
  refine (I.sorted b hb).imp ?_
  rintro x y h rfl
  have := sizecmp_irrefl (t.heap.size x)
  omega

theorem Inv.length {t : Tree} {C : Nat → List Nat} (I : Inv t C) {b : Nat} (hb : b < t.freshBase) :
    (C b).length ≤ t.fresh := by
  have h : (C b).Subperm (List.range t.fresh) :=
    (I.nodup hb).subperm fun x hx => List.mem_range.2 ((I.mem b hb x).1 hx).1
  simpa using h.length_le

theorem Inv.fresh_par {t : Tree} {C : Nat → List Nat} (I : Inv t C) : t.heap.par t.fresh = none := by
  cases h : t.heap.par t.fresh with
  | none => rfl
  | some p => exact absurd (I.bound _ _ h).1 (Nat.lt_irrefl _)

theorem Inv.fresh_ch {t : Tree} {C : Nat → List Nat} (I : Inv t C) : t.heap.ch t.fresh = [] := by
  cases h : t.heap.ch t.fresh with
  | nil => rfl
  | cons m l =>
    have := (I.pc.mem m t.fresh).2 (by rw [h]; exact List.mem_cons_self)
    exact absurd (I.bound _ _ this).2 (Nat.lt_irrefl _)

/-- The walk from the first node visits all nodes of a chain. -/
theorem Inv.walk {t : Tree} {C : Nat → List Nat} (I : Inv t C) {k c : Nat} (hc : c ∈ t.begins k) :
    t.heap.walk t.fresh c = C (t.heap.base c) := by
  obtain ⟨h1, h2⟩ := I.begins k c hc
  have hb := I.base_lt c h1
  have hl := I.linked _ hb
  have hlen := I.length hb
  cases hC : C (t.heap.base c) with
  | nil => rw [hC] at h2; simp at h2
  | cons x l =>
    rw [hC] at h2 hl hlen
    simp only [List.head?_cons, Option.some.injEq] at h2
    subst h2
    exact hl.walk (by simp at hlen; omega)

/-- The ambiguous list is not a part of the invariant. -/
theorem Inv.ambiguous {t : Tree} {C : Nat → List Nat} (I : Inv t C) (r : AR) (b p : Nat) : Inv (t.ambiguous r b p) C := by
  unfold Tree.ambiguous
  split
  · exact ⟨I.pc, I.bound, I.base_lt, I.mem, I.ne, I.linked, I.sorted, I.begins, I.key, I.all⟩
  · exact I

theorem Inv.newChain {t : Tree} {C : Nat → List Nat} (I : Inv t C) (k : Nat) (b : Loc) :
    Inv (t.newChain k b) (upd C t.freshBase [t.fresh]) := by
  have hpar : upd t.heap.par t.fresh none = t.heap.par := by
    conv_lhs => rw [← I.fresh_par]
    exact upd_self _ _
  have hch : upd t.heap.ch t.fresh [] = t.heap.ch := by
    conv_lhs => rw [← I.fresh_ch]
    exact upd_self _ _
  have hbase : ∀ m, m < t.fresh → upd t.heap.base t.fresh t.freshBase m = t.heap.base m := fun m hm =>
    upd_other _ _ _ (Nat.ne_of_lt hm)
  have hnext : ∀ m, m < t.fresh → (t.newChain k b).heap.next m = t.heap.next m := by
    intro m hm
    simp only [Heap.next, Tree.newChain, hpar]
    cases hp : t.heap.par m with
    | none => rfl
    | some p => simp only [hbase m hm, hbase p (I.bound _ _ hp).2]
  refine ⟨?_, ?_, ?_, ?_, ?_, ?_, ?_, ?_, ?_, ?_⟩
  · simp only [Tree.newChain, hpar, hch]
    exact ⟨I.pc.mem, I.pc.nodup⟩
  · intro m p hp
    simp only [Tree.newChain, hpar] at hp ⊢
    have := I.bound m p hp
    omega
  · intro m hm
    simp only [Tree.newChain] at hm ⊢
    by_cases h : m = t.fresh
    · subst h; rw [upd_same]; omega
    · rw [upd_other _ _ _ h]
      have := I.base_lt m (by omega)
      omega
  · intro b' hb' m
    simp only [Tree.newChain] at hb' ⊢
    by_cases h : b' = t.freshBase
    · subst h
      rw [upd_same]
      by_cases hm : m = t.fresh
      · subst hm; simp [upd_same]
      · rw [upd_other _ _ _ hm]
        simp only [List.mem_singleton, hm, false_iff, not_and]
        intro hlt e
        have := I.base_lt m (by omega)
        omega
    · rw [upd_other _ _ _ h, I.mem b' (by omega)]
      by_cases hm : m = t.fresh
      · subst hm; simp [upd_same]; omega
      · rw [upd_other _ _ _ hm]
        constructor
        · rintro ⟨h1, h2⟩; exact ⟨by omega, h2⟩
        · rintro ⟨h1, h2⟩; exact ⟨by omega, h2⟩
  · intro b' hb'
    simp only [Tree.newChain] at hb'
    by_cases h : b' = t.freshBase
    · subst h; rw [upd_same]; simp
    · rw [upd_other _ _ _ h]; exact I.ne b' (by omega)
  · intro b' hb'
    simp only [Tree.newChain] at hb'
    by_cases h : b' = t.freshBase
    · subst h
      rw [upd_same]
      show (t.newChain k b).heap.next t.fresh = none
      simp only [Heap.next, Tree.newChain, upd_same]
    · rw [upd_other _ _ _ h]
      exact (I.linked b' (by omega)).congr fun x hx => hnext x ((I.mem b' (by omega) x).1 hx).1
  · intro b' hb'
    simp only [Tree.newChain] at hb' ⊢
    by_cases h : b' = t.freshBase
    · subst h; rw [upd_same]; exact List.pairwise_singleton _ _
    · rw [upd_other _ _ _ h]
      refine (I.sorted b' (by omega)).imp_of_mem ?_
      intro x y hx hy hxy
      rw [upd_other _ _ _ (Nat.ne_of_lt ((I.mem b' (by omega) x).1 hx).1),
        upd_other _ _ _ (Nat.ne_of_lt ((I.mem b' (by omega) y).1 hy).1)]
      exact hxy
  · intro k' c hc
    have hcase : c = t.fresh ∨ c ∈ t.begins k' := by
      simp only [Tree.newChain] at hc
      by_cases h : k' = k
      · subst h
        rw [upd_same] at hc
        rcases List.mem_append.1 hc with hc | hc
        · exact .inr hc
        · exact .inl (List.mem_singleton.1 hc)
      · rw [upd_other _ _ _ h] at hc
        exact .inr hc
    rcases hcase with rfl | hc
    · simp [Tree.newChain, upd_same]
    · obtain ⟨h1, h2⟩ := I.begins k' c hc
      have h3 := I.base_lt c h1
      simp only [Tree.newChain]
      rw [hbase c h1, upd_other _ _ _ (Nat.ne_of_lt h3)]
      exact ⟨by omega, h2⟩
  · have hcase : ∀ k' c, c ∈ (t.newChain k b).begins k' → (c = t.fresh ∧ k' = k) ∨ c ∈ t.begins k' := by
      intro k' c hc
      simp only [Tree.newChain] at hc
      by_cases h : k' = k
      · subst h
        rw [upd_same] at hc
        rcases List.mem_append.1 hc with hc | hc
        · exact .inr hc
        · exact .inl ⟨List.mem_singleton.1 hc, rfl⟩
      · rw [upd_other _ _ _ h] at hc
        exact .inr hc
    intro k1 k2 c1 c2 hc1 hc2 e
    simp only [Tree.newChain] at e
    rcases hcase k1 c1 hc1 with ⟨rfl, rfl⟩ | hc1
    · rcases hcase k2 c2 hc2 with ⟨rfl, rfl⟩ | hc2
      · rfl
      · obtain ⟨h1, -⟩ := I.begins k2 c2 hc2
        rw [upd_same, hbase c2 h1] at e
        have := I.base_lt c2 h1
        omega
    · obtain ⟨h1, -⟩ := I.begins k1 c1 hc1
      rw [hbase c1 h1] at e
      rcases hcase k2 c2 hc2 with ⟨rfl, rfl⟩ | hc2
      · rw [upd_same] at e
        have := I.base_lt c1 h1
        omega
      · obtain ⟨h2, -⟩ := I.begins k2 c2 hc2
        rw [hbase c2 h2] at e
        exact I.key k1 k2 c1 c2 hc1 hc2 e
  · intro b' hb'
    simp only [Tree.newChain] at hb' ⊢
    by_cases h : b' = t.freshBase
    · exact ⟨k, t.fresh, by rw [upd_same]; simp, by rw [upd_same, h]⟩
    · obtain ⟨k', c, hc, e⟩ := I.all b' (by omega)
      have h1 := (I.begins k' c hc).1
      refine ⟨k', c, ?_, by rw [hbase c h1]; exact e⟩
      by_cases hk : k' = k
      · subst hk; rw [upd_same]; exact List.mem_append.2 (.inl hc)
      · rw [upd_other _ _ _ hk]; exact hc

/-- A new node is added to a chain `b`. -/
theorem Inv.grow {t t' : Tree} {C : Nat → List Nat} (I : Inv t C) {b : Nat} {s : Size} {L : List Nat}
    (hb : b < t.freshBase) (hf : t'.fresh = t.fresh + 1) (hfb : t'.freshBase = t.freshBase) (hpc : PC t'.heap)
    (hbase : t'.heap.base = upd t.heap.base t.fresh b) (hsize : t'.heap.size = upd t.heap.size t.fresh s)
    (hbound : ∀ m p, t'.heap.par m = some p → m < t'.fresh ∧ p < t'.fresh)
    (hnext : ∀ b', b' < t.freshBase → b' ≠ b → ∀ x ∈ C b', t'.heap.next x = t.heap.next x)
    (hmem : ∀ x, x ∈ L ↔ x = t.fresh ∨ x ∈ C b) (hlinked : Linked t'.heap L)
    (hsorted : L.Pairwise fun x y => sizecmp (t'.heap.size x) (t'.heap.size y) < 0)
    (hbegins : ∀ k, ∀ c ∈ t'.begins k, (c ∈ t.begins k ∧ (t.heap.base c = b → L.head? = some c)) ∨
      (c = t.fresh ∧ L.head? = some t.fresh ∧ ∃ c0 ∈ t.begins k, t.heap.base c0 = b))
    (hall : ∀ k, ∀ c ∈ t.begins k, ∃ c' ∈ t'.begins k, t'.heap.base c' = t.heap.base c) : Inv t' (upd C b L) := by
  have hB : ∀ m, m < t.fresh → t'.heap.base m = t.heap.base m := fun m hm => by
    rw [hbase]; exact upd_other _ _ _ (Nat.ne_of_lt hm)
  have hS : ∀ m, m < t.fresh → t'.heap.size m = t.heap.size m := fun m hm => by
    rw [hsize]; exact upd_other _ _ _ (Nat.ne_of_lt hm)
  have hBf : t'.heap.base t.fresh = b := by rw [hbase, upd_same]
  -- The base of a begin of a chain and an old begin of the same chain.
  have hold : ∀ k, ∀ c ∈ t'.begins k, ∃ c0 ∈ t.begins k, t.heap.base c0 = t'.heap.base c := by
    intro k c hc
    rcases hbegins k c hc with ⟨h, -⟩ | ⟨rfl, -, c0, h0, e⟩
    · exact ⟨c, h, (hB c (I.begins k c h).1).symm⟩
    · exact ⟨c0, h0, by rw [hBf, e]⟩
  refine ⟨hpc, hbound, ?_, ?_, ?_, ?_, ?_, ?_, ?_, ?_⟩
  · intro m hm
    rw [hfb]
    by_cases h : m = t.fresh
    · subst h; rw [hBf]; exact hb
    · rw [hB m (by omega)]; exact I.base_lt m (by omega)
  · intro b' hb' m
    rw [hfb] at hb'
    rw [hf]
    by_cases h : b' = b
    · subst h
      rw [upd_same, hmem, I.mem b' hb']
      by_cases hm : m = t.fresh
      · subst hm; simp [hBf]
      · constructor
        · rintro (h | ⟨h1, h2⟩)
          · exact absurd h hm
          · exact ⟨by omega, by rw [hB m h1]; exact h2⟩
        · rintro ⟨h1, h2⟩
          rw [hB m (by omega)] at h2
          exact .inr ⟨by omega, h2⟩
    · rw [upd_other _ _ _ h, I.mem b' hb']
      by_cases hm : m = t.fresh
      · subst hm
        rw [hBf]
        constructor
        · rintro ⟨h1, -⟩; omega
        · rintro ⟨-, e⟩; exact absurd e.symm h
      · constructor
        · rintro ⟨h1, h2⟩
          exact ⟨by omega, by rw [hB m h1]; exact h2⟩
        · rintro ⟨h1, h2⟩
          rw [hB m (by omega)] at h2
          exact ⟨by omega, h2⟩
  · intro b' hb'
    rw [hfb] at hb'
    by_cases h : b' = b
    · subst h
      rw [upd_same]
      exact List.ne_nil_of_mem ((hmem t.fresh).2 (.inl rfl))
    · rw [upd_other _ _ _ h]; exact I.ne b' hb'
  · intro b' hb'
    rw [hfb] at hb'
    by_cases h : b' = b
    · subst h; rw [upd_same]; exact hlinked
    · rw [upd_other _ _ _ h]; exact (I.linked b' hb').congr (hnext b' hb' h)
  · intro b' hb'
    rw [hfb] at hb'
    by_cases h : b' = b
    · subst h; rw [upd_same]; exact hsorted
    · rw [upd_other _ _ _ h]
      refine (I.sorted b' hb').imp_of_mem ?_
      intro x y hx hy hxy
      rw [hS x ((I.mem b' hb' x).1 hx).1, hS y ((I.mem b' hb' y).1 hy).1]
      exact hxy
  · intro k c hc
    rcases hbegins k c hc with ⟨h, hh⟩ | ⟨rfl, hh, -⟩
    · obtain ⟨h1, h2⟩ := I.begins k c h
      refine ⟨by omega, ?_⟩
      rw [hB c h1]
      by_cases e : t.heap.base c = b
      · rw [e, upd_same]; exact hh e
      · rw [upd_other _ _ _ e]; exact h2
    · exact ⟨by omega, by rw [hBf, upd_same]; exact hh⟩
  · intro k k' c c' hc hc' e
    obtain ⟨d, hd, e1⟩ := hold k c hc
    obtain ⟨d', hd', e2⟩ := hold k' c' hc'
    exact I.key k k' d d' hd hd' (by rw [e1, e2, e])
  · intro b' hb'
    rw [hfb] at hb'
    obtain ⟨k, c, hc, e⟩ := I.all b' hb'
    obtain ⟨c', hc', e'⟩ := hall k c hc
    exact ⟨k, c', hc', by rw [e', e]⟩

/-- The effect of an insertion which is visible for all chains. -/
structure Step (t t' : Tree) (C C' : Nat → List Nat) (em : Nat) (s : Size) : Prop where
  inv : Inv t' C'
  fresh : t.fresh ≤ t'.fresh
  freshBase : t.freshBase ≤ t'.freshBase
  base : ∀ m, m < t.fresh → t'.heap.base m = t.heap.base m
  size : ∀ m, m < t.fresh → t'.heap.size m = t.heap.size m
  other : ∀ b, b < t.freshBase → b ≠ t'.heap.base em → C' b = C b
  em_lt : em < t'.fresh
  em_size : sizecmp s (t'.heap.size em) = 0

theorem sizecmp_self (a : Size) : sizecmp a a = 0 := by simp [sizecmp]

/-- The start of the insertion: a new isolated node. -/
theorem Inv.copy {t : Tree} {C : Nat → List Nat} (I : Inv t C) (c : Nat) (s : Size) :
    (t.copy c s).heap = Heap.mk t.heap.par t.heap.ch (upd t.heap.base t.fresh (t.heap.base c))
      (upd t.heap.size t.fresh s) := by
  have hpar : upd t.heap.par t.fresh none = t.heap.par := by
    conv_lhs => rw [← I.fresh_par]
    exact upd_self _ _
  have hch : upd t.heap.ch t.fresh [] = t.heap.ch := by
    conv_lhs => rw [← I.fresh_ch]
    exact upd_self _ _
  simp only [Tree.copy, hpar, hch]

theorem next_iff {h : Heap} {m p : Nat} : h.next m = some p ↔ h.par m = some p ∧ h.base m = h.base p := by
  unfold Heap.next
  cases h.par m with
  | none => simp
  | some q =>
    simp only [Option.some.injEq]
    split
    · constructor
      · intro e; simp only [Option.some.injEq] at e; subst e; exact ⟨rfl, by assumption⟩
      · rintro ⟨rfl, -⟩; rfl
    · constructor
      · intro e; cases e
      · rintro ⟨rfl, e⟩; contradiction

theorem next_none_of {h : Heap} {m : Nat} (hm : ∀ p, h.par m = some p → h.base m ≠ h.base p) : h.next m = none := by
  cases e : h.next m with
  | none => rfl
  | some p => exact absurd (next_iff.1 e).2 (hm p (next_iff.1 e).1)

/-- `next` depends on the parent and on bases. -/
theorem next_congr {h h' : Heap} {m : Nat} (hp : h'.par m = h.par m) (hb : h'.base m = h.base m)
    (hb' : ∀ p, h.par m = some p → h'.base p = h.base p) : h'.next m = h.next m := by
  unfold Heap.next
  rw [hp]
  cases e : h.par m with
  | none => rfl
  | some p => simp only [hb, hb' p e]

theorem Inv.insertInto {t : Tree} {C : Nat → List Nat} (I : Inv t C) {k c : Nat} (hc : c ∈ t.begins k) (s : Size) :
    ∃ C', Step t (t.insertInto k c ((C (t.heap.base c)).getLast?.getD c)
      ((C (t.heap.base c)).find? fun x => decide (sizecmp s (t.heap.size x) ≤ 0)) s).1 C C'
      (t.insertInto k c ((C (t.heap.base c)).getLast?.getD c)
      ((C (t.heap.base c)).find? fun x => decide (sizecmp s (t.heap.size x) ≤ 0)) s).2.1 s := by
  obtain ⟨hcf, hhead⟩ := I.begins k c hc
  have hb := I.base_lt c hcf
  have hl := I.linked _ hb
  have hnd := I.nodup hb
  have hsrt := I.sorted _ hb
  have hm := I.mem _ hb
  have hne := I.ne _ hb
  -- Any other begin in the list of `k` starts another chain.
  have honly : ∀ k' x, x ∈ t.begins k' → t.heap.base x = t.heap.base c → x = c := by
    intro k' x hx e
    have := (I.begins k' x hx).2
    rw [e, hhead] at this
    exact (Option.some.inj this).symm
  generalize hbc : t.heap.base c = b at *
  cases hu : (C b).find? fun x => decide (sizecmp s (t.heap.size x) ≤ 0) with
  | none =>
    obtain ⟨last, hlast⟩ : ∃ last, (C b).getLast? = some last := ⟨_, List.getLast?_eq_some_getLast hne⟩
    rw [hlast]
    simp only [Option.getD_some, Tree.insertInto]
    have hlm := (hm last).1 (List.mem_of_getLast? hlast)
    have hsz : ∀ x ∈ C b, sizecmp (t.heap.size x) s < 0 := by
      intro x hx
      have := List.find?_eq_none.1 hu x hx
      exact sizecmp_swap (by simpa using this)
    have hlf : last ≠ t.fresh := Nat.ne_of_lt hlm.1
    have hpf : (t.copy last s).heap.par t.fresh = none := by rw [I.copy]; exact I.fresh_par
    have hpl : (t.copy last s).heap.par last ≠ some t.fresh := by
      rw [I.copy]
      intro e
      exact absurd (I.bound _ _ e).2 (Nat.lt_irrefl _)
    have hpc0 : PC (t.copy last s).heap := by rw [I.copy]; exact ⟨I.pc.mem, I.pc.nodup⟩
    have hpar : ((t.copy last s).heap.spliceNext last t.fresh).par =
        upd (upd t.heap.par t.fresh (t.heap.par last)) last (some t.fresh) := by
      rw [spliceNext_par hlf hpf hpl, I.copy]
    have hbase : ((t.copy last s).heap.spliceNext last t.fresh).base = upd t.heap.base t.fresh b := by
      rw [spliceNext_base, I.copy]
      simp only [hlm.2]
    have hsize : ((t.copy last s).heap.spliceNext last t.fresh).size = upd t.heap.size t.fresh s := by
      rw [spliceNext_size, I.copy]
    have hnl : t.heap.next last = none := hl.last hlast
    have hnx : ∀ x, x < t.fresh → x ≠ last →
        ((t.copy last s).heap.spliceNext last t.fresh).next x = t.heap.next x := by
      intro x hx hxl
      refine next_congr ?_ ?_ ?_
      · rw [hpar, upd_other _ _ _ hxl, upd_other _ _ _ (Nat.ne_of_lt hx)]
      · rw [hbase, upd_other _ _ _ (Nat.ne_of_lt hx)]
      · intro p hp
        rw [hbase, upd_other _ _ _ (Nat.ne_of_lt (I.bound _ _ hp).2)]
    refine ⟨upd C b (C b ++ [t.fresh]), ?_⟩
    refine ⟨I.grow (s := s) hb rfl rfl (hpc0.spliceNext hlf hpf hpl) hbase hsize ?_ ?_ ?_ ?_ ?_ ?_ ?_, ?_, ?_, ?_, ?_, ?_,
      ?_, ?_⟩
    · intro m p hp
      simp only [hpar] at hp
      show m < t.fresh + 1 ∧ p < t.fresh + 1
      by_cases h1 : m = last
      · subst h1
        rw [upd_same] at hp
        simp only [Option.some.injEq] at hp
        omega
      · rw [upd_other _ _ _ h1] at hp
        by_cases h2 : m = t.fresh
        · subst h2
          rw [upd_same] at hp
          have := I.bound _ _ hp
          omega
        · rw [upd_other _ _ _ h2] at hp
          have := I.bound _ _ hp
          omega
    · intro b' hb' hne' x hx
      have hx' := (I.mem b' hb' x).1 hx
      exact hnx x hx'.1 fun e => hne' (by rw [← hx'.2, e, hlm.2])
    · intro x
      simp [or_comm]
    · refine hl.append hlast hnd ?_ ?_ ?_
      · intro x hx hxl
        exact hnx x ((hm x).1 hx).1 hxl
      · refine next_iff.2 ⟨by simp only [hpar, upd_same], ?_⟩
        simp only [hbase]
        rw [upd_same, upd_other _ _ _ hlf, hlm.2]
      · refine next_none_of ?_
        intro p hp
        simp only [hpar] at hp
        rw [upd_other _ _ _ hlf.symm, upd_same] at hp
        simp only [hbase]
        rw [upd_same, upd_other _ _ _ (Nat.ne_of_lt (I.bound _ _ hp).2)]
        intro e
        have : t.heap.next last = some p := next_iff.2 ⟨hp, by rw [hlm.2, e]⟩
        rw [hnl] at this
        cases this
    · rw [List.pairwise_append]
      refine ⟨?_, List.pairwise_singleton _ _, ?_⟩
      · refine hsrt.imp_of_mem ?_
        intro x y hx hy hxy
        simp only [hsize]
        rw [upd_other _ _ _ (Nat.ne_of_lt ((hm x).1 hx).1), upd_other _ _ _ (Nat.ne_of_lt ((hm y).1 hy).1)]
        exact hxy
      · intro x hx y hy
        rw [List.mem_singleton.1 hy]
        simp only [hsize]
        rw [upd_same, upd_other _ _ _ (Nat.ne_of_lt ((hm x).1 hx).1)]
        exact hsz x hx
    · intro k' x hx
      refine .inl ⟨hx, fun e => ?_⟩
      rw [honly k' x hx e]
      rw [List.head?_append, hhead]
      rfl
    · intro k' x hx
      refine ⟨x, hx, ?_⟩
      simp only [hbase]
      rw [upd_other _ _ _ (Nat.ne_of_lt (I.begins k' x hx).1)]
    · exact Nat.le_succ _
    · exact Nat.le_refl _
    · intro m hm'
      simp only [hbase]
      rw [upd_other _ _ _ (Nat.ne_of_lt hm')]
    · intro m hm'
      simp only [hsize]
      rw [upd_other _ _ _ (Nat.ne_of_lt hm')]
    · intro b' _ hb''
      simp only [hbase] at hb''
      rw [upd_same] at hb''
      rw [upd_other _ _ _ hb'']
    · exact Nat.lt_succ_self _
    · simp only [hsize]
      rw [upd_same]
      exact sizecmp_self _
  | some u =>
    simp only [Tree.insertInto]
    obtain ⟨hsu, a, d, hC, ha⟩ := List.find?_eq_some_iff_append.1 hu
    have hsu' : sizecmp s (t.heap.size u) ≤ 0 := by simpa using hsu
    have hum := (hm u).1 (by rw [hC]; simp)
    by_cases hz : sizecmp s (t.heap.size u) = 0
    · simp only [if_pos hz]
      exact ⟨C, I, Nat.le_refl _, Nat.le_refl _, fun _ _ => rfl, fun _ _ => rfl, fun _ _ _ => rfl, hum.1, hz⟩
    · simp only [if_neg hz]
      have hlt : sizecmp s (t.heap.size u) < 0 := by omega
      have hsz : ∀ x ∈ a, sizecmp (t.heap.size x) s < 0 := by
        intro x hx
        have := ha x hx
        exact sizecmp_swap (by simpa using this)
      have huf : u ≠ t.fresh := Nat.ne_of_lt hum.1
      have hpf : (t.copy u s).heap.par t.fresh = none := by rw [I.copy]; exact I.fresh_par
      have hcf' : (t.copy u s).heap.ch t.fresh = [] := by rw [I.copy]; exact I.fresh_ch
      have hpc0 : PC (t.copy u s).heap := by rw [I.copy]; exact ⟨I.pc.mem, I.pc.nodup⟩
      obtain ⟨hpc, hbase, hsize, hpar⟩ := splicePrev_spec hpc0 huf hpf hcf'
      generalize hh : (t.copy u s).heap.splicePrev u t.fresh = h' at *
      have hcp : (t.copy u s).heap.par = t.heap.par := by rw [I.copy]
      have hcb : (t.copy u s).heap.base = upd t.heap.base t.fresh b := by
        rw [I.copy]; simp only [hum.2]
      have hcs : (t.copy u s).heap.size = upd t.heap.size t.fresh s := by rw [I.copy]
      rw [hcb] at hbase
      rw [hcs] at hsize
      rw [hcp, hcb] at hpar
      have hB : ∀ x, x < t.fresh → h'.base x = t.heap.base x := fun x hx => by
        rw [hbase, upd_other _ _ _ (Nat.ne_of_lt hx)]
      have hBf : h'.base t.fresh = b := by rw [hbase, upd_same]
      -- Facts about parents.
      have hfp : h'.par t.fresh = some u := by
        rcases hpar with ⟨-, e⟩ | ⟨i, hi, -, -, e⟩
        · rw [e, upd_same]
        · rw [e, upd_other _ _ _ hi.symm, upd_same]
      have hbd : ∀ m p, h'.par m = some p → m < t.fresh + 1 ∧ p < t.fresh + 1 := by
        intro m p hp
        rcases hpar with ⟨-, e⟩ | ⟨i, hi, hiu, -, e⟩
        · rw [e] at hp
          by_cases h2 : m = t.fresh
          · subst h2
            rw [upd_same] at hp
            simp only [Option.some.injEq] at hp
            have := hum.1
            omega
          · rw [upd_other _ _ _ h2] at hp
            have := I.bound _ _ hp
            omega
        · rw [e] at hp
          by_cases h1 : m = i
          · subst h1
            rw [upd_same] at hp
            simp only [Option.some.injEq] at hp
            have := (I.bound _ _ hiu).1
            omega
          · rw [upd_other _ _ _ h1] at hp
            by_cases h2 : m = t.fresh
            · subst h2
              rw [upd_same] at hp
              simp only [Option.some.injEq] at hp
              have := hum.1
              omega
            · rw [upd_other _ _ _ h2] at hp
              have := I.bound _ _ hp
              omega
      -- Facts about the following nodes.
      have hn1 : ∀ x, x < t.fresh → t.heap.next x ≠ some u → h'.next x = t.heap.next x := by
        intro x hx hxu
        have hp : h'.par x = t.heap.par x := by
          rcases hpar with ⟨-, e⟩ | ⟨i, hi, hiu, hib, e⟩
          · rw [e, upd_other _ _ _ (Nat.ne_of_lt hx)]
          · have hxi : x ≠ i := by
              rintro rfl
              rw [upd_same, upd_other _ _ _ hi] at hib
              exact hxu (next_iff.2 ⟨hiu, by rw [hib, hum.2]⟩)
            rw [e, upd_other _ _ _ hxi, upd_other _ _ _ (Nat.ne_of_lt hx)]
        exact next_congr hp (hB x hx) fun p hp => hB p (I.bound _ _ hp).2
      have hn2 : ∀ x, x ∈ C b → t.heap.next x = some u → h'.next x = some t.fresh := by
        intro x hx hxu
        have hx' := (hm x).1 hx
        have hxn := next_iff.1 hxu
        rcases hpar with ⟨hno, e⟩ | ⟨i, hi, hiu, hib, e⟩
        · refine absurd ?_ (hno x hxn.1)
          rw [upd_other _ _ _ (Nat.ne_of_lt hx'.1), upd_same, hx'.2]
        · rw [upd_same, upd_other _ _ _ hi] at hib
          have hil := (I.bound _ _ hiu).1
          have hxi : x = i := hl.unique hnd hx ((hm i).2 ⟨hil, hib⟩) hxu (next_iff.2 ⟨hiu, by rw [hib, hum.2]⟩)
          subst hxi
          refine next_iff.2 ⟨by rw [e, upd_same], ?_⟩
          rw [hBf, hB x hx'.1, hx'.2]
      have hn3 : h'.next t.fresh = some u := next_iff.2 ⟨hfp, by rw [hBf, hB u hum.1, hum.2]⟩
      have hsu2 : ∀ y ∈ d, sizecmp s (t.heap.size y) < 0 := by
        intro y hy
        rw [hC, List.pairwise_append] at hsrt
        exact sizecmp_trans hlt ((List.pairwise_cons.1 hsrt.2.1).1 y hy)
      have hS : ∀ x, x ∈ C b → h'.size x = t.heap.size x := fun x hx => by
        rw [hsize, upd_other _ _ _ (Nat.ne_of_lt ((hm x).1 hx).1)]
      have hSf : h'.size t.fresh = s := by rw [hsize, upd_same]
      have hcu : c = u ↔ a = [] := by
        rw [hC] at hhead hnd
        cases a with
        | nil =>
          simp only [List.nil_append, List.head?_cons, Option.some.injEq] at hhead
          simp [hhead]
        | cons x a =>
          simp only [List.cons_append, List.head?_cons, Option.some.injEq] at hhead
          subst hhead
          simp only [reduceCtorEq, iff_false]
          rintro rfl
          exact (List.nodup_cons.1 hnd).1 (by simp)
      refine ⟨upd C b (a ++ t.fresh :: u :: d), ?_⟩
      refine ⟨I.grow (s := s) hb rfl rfl hpc hbase hsize hbd ?_ ?_ ?_ ?_ ?_ ?_, ?_, ?_, ?_, ?_, ?_, ?_, ?_⟩
      · intro b' hb' hne' x hx
        have hx' := (I.mem b' hb' x).1 hx
        refine hn1 x hx'.1 fun e => hne' ?_
        rw [← hx'.2, (next_iff.1 e).2, hum.2]
      · intro x
        rw [hC]
        simp only [List.mem_append, List.mem_cons]
        constructor
        · rintro (h | h | h)
          · exact .inr (.inl h)
          · exact .inl h
          · exact .inr (.inr h)
        · rintro (h | h | h)
          · exact .inr (.inl h)
          · exact .inl h
          · exact .inr (.inr h)
      · rw [hC] at hl hnd
        refine hl.insert ?_ ?_ hn3 hnd
        · intro x hx
          exact hn1 x ((hm x).1 (by rw [hC]; exact hx)).1
        · intro x hx
          exact hn2 x (by rw [hC]; exact hx)
      · have hsrt' : (a ++ u :: d).Pairwise fun x y => sizecmp (h'.size x) (h'.size y) < 0 := by
          rw [← hC]
          refine hsrt.imp_of_mem ?_
          intro x y hx hy hxy
          rw [hS x hx, hS y hy]; exact hxy
        rw [List.pairwise_append] at hsrt' ⊢
        refine ⟨hsrt'.1, List.pairwise_cons.2 ⟨?_, hsrt'.2.1⟩, ?_⟩
        · intro y hy
          show sizecmp (h'.size t.fresh) (h'.size y) < 0
          rw [hSf, hS y (by rw [hC]; exact List.mem_append.2 (.inr hy))]
          rcases List.mem_cons.1 hy with rfl | hy
          · exact hlt
          · exact hsu2 y hy
        · intro x hx y hy
          rcases List.mem_cons.1 hy with rfl | hy
          · show sizecmp (h'.size x) (h'.size t.fresh) < 0
            rw [hSf, hS x (by rw [hC]; exact List.mem_append.2 (.inl hx))]
            exact hsz x hx
          · exact hsrt'.2.2 x hx y hy
      · intro k' x hx
        by_cases hcu' : c = u
        · simp only [if_pos hcu'] at hx
          have hae := hcu.1 hcu'
          by_cases hk : k' = k
          · subst hk
            rw [upd_same] at hx
            obtain ⟨y, hy, hyx⟩ := List.mem_map.1 hx
            by_cases hyu : y = u
            · rw [if_pos hyu] at hyx
              refine .inr ⟨hyx.symm, by rw [hae]; rfl, c, hc, hbc⟩
            · rw [if_neg hyu] at hyx
              subst hyx
              refine .inl ⟨hy, fun e => absurd (honly k' y hy e) ?_⟩
              rw [hcu']; exact hyu
          · rw [upd_other _ _ _ hk] at hx
            refine .inl ⟨hx, fun e => absurd ?_ hk⟩
            exact I.key k' k x c hx hc (by rw [e, hbc])
        · simp only [if_neg hcu'] at hx
          refine .inl ⟨hx, fun e => ?_⟩
          rw [honly k' x hx e]
          have hane : a ≠ [] := fun e => hcu' (hcu.2 e)
          rw [hC] at hhead
          cases a with
          | nil => exact absurd rfl hane
          | cons y a =>
            simp only [List.cons_append, List.head?_cons] at hhead ⊢
            exact hhead
      · intro k' x hx
        have hxf := (I.begins k' x hx).1
        by_cases hcu' : c = u
        · simp only [if_pos hcu']
          by_cases hk : k' = k
          · subst hk
            rw [upd_same]
            refine ⟨_, List.mem_map_of_mem hx, ?_⟩
            by_cases hxu : x = u
            · simp only [if_pos hxu, hBf]
              rw [hxu, hum.2]
            · simp only [if_neg hxu]
              exact hB x hxf
          · rw [upd_other _ _ _ hk]
            exact ⟨x, hx, hB x hxf⟩
        · simp only [if_neg hcu']
          exact ⟨x, hx, hB x hxf⟩
      · exact Nat.le_succ _
      · exact Nat.le_refl _
      · exact hB
      · intro m hm'
        simp only [hsize]
        rw [upd_other _ _ _ (Nat.ne_of_lt hm')]
      · intro b' _ hb''
        simp only [hBf] at hb''
        rw [upd_other _ _ _ hb'']
      · exact Nat.lt_succ_self _
      · simp only [hSf]
        exact sizecmp_self _

/-- Only lists of ambiguous pointers differ. -/
structure SameNodes (t t' : Tree) : Prop where
  heap : t'.heap = t.heap
  begins : t'.begins = t.begins
  fresh : t'.fresh = t.fresh
  freshBase : t'.freshBase = t.freshBase

theorem SameNodes.refl (t : Tree) : SameNodes t t := ⟨rfl, rfl, rfl, rfl⟩

theorem SameNodes.trans {a b c : Tree} (h1 : SameNodes a b) (h2 : SameNodes b c) : SameNodes a c :=
  ⟨h2.heap.trans h1.heap, h2.begins.trans h1.begins, h2.fresh.trans h1.fresh, h2.freshBase.trans h1.freshBase⟩

theorem SameNodes.ambiguous (t : Tree) (r : AR) (b p : Nat) : SameNodes t (t.ambiguous r b p) := by
  unfold Tree.ambiguous
  split <;> exact ⟨rfl, rfl, rfl, rfl⟩

theorem SameNodes.inv {t t' : Tree} {C : Nat → List Nat} (H : SameNodes t t') (I : Inv t C) : Inv t' C := by
  obtain ⟨h1, h2, h3, h4⟩ := H
  exact ⟨by rw [h1]; exact I.pc, by rw [h1, h3]; exact I.bound, by rw [h1, h3, h4]; exact I.base_lt,
    by rw [h1, h3, h4]; exact I.mem, by rw [h4]; exact I.ne, by rw [h1, h4]; exact I.linked,
    by rw [h1, h4]; exact I.sorted, by rw [h1, h2, h3]; exact I.begins, by rw [h1, h2]; exact I.key,
    by rw [h1, h2, h4]; exact I.all⟩

theorem SameNodes.step {t t' t'' : Tree} {C C' : Nat → List Nat} {em : Nat} {s : Size} (H : SameNodes t t')
    (S : Step t' t'' C C' em s) : Step t t'' C C' em s := by
  obtain ⟨h1, -, h3, h4⟩ := H
  exact ⟨S.inv, h3 ▸ S.fresh, h4 ▸ S.freshBase, by rw [← h1, ← h3]; exact S.base, by rw [← h1, ← h3]; exact S.size,
    by rw [← h4]; exact S.other, S.em_lt, S.em_size⟩

/-- An existing node is found, so nothing is changed. -/
theorem insertInto_old {t : Tree} {k c last : Nat} {u : Option Nat} {s : Size}
    (h : (t.insertInto k c last u s).2.2 = false) : (t.insertInto k c last u s).1 = t := by
  revert h
  unfold Tree.insertInto
  cases u with
  | none => intro h; cases h
  | some u =>
    by_cases hz : sizecmp s (t.heap.size u) = 0
    · simp only [if_pos hz]
      intro _
      trivial
    · simp only [if_neg hz]
      intro h
      cases h

theorem insertLoop_spec (E : Env) (b : Loc) : ∀ (cs : List Nat) {t : Tree} {C : Nat → List Nat}, Inv t C →
    (∀ c ∈ cs, c ∈ t.begins (E.key b.ptr)) →
    match insertLoop E b cs t with
    | (t', none) => SameNodes t t'
    | (t', some r) => ∃ C', Step t t' C C' r.em b.size ∧ (r.isNew = false → SameNodes t t') := by
  intro cs
  induction cs with
  | nil => intro t C I _; exact SameNodes.refl t
  | cons c cs ih =>
    intro t C I hcs
    have hcs' : ∀ x ∈ cs, x ∈ t.begins (E.key b.ptr) := fun x hx => hcs x (List.mem_cons_of_mem _ hx)
    unfold insertLoop
    by_cases h1 : (!t.sameFirst E (t.heap.base c) b.ptr) = true
    · rw [if_pos h1]; exact ih I hcs'
    · rw [if_neg h1]
      by_cases h2 : E.samePointer (t.amb (t.heap.base c)) b.ptr = .no
      · rw [if_pos h2]; exact ih I hcs'
      · rw [if_neg h2]
        have hs := SameNodes.ambiguous t (E.samePointer (t.amb (t.heap.base c)) b.ptr) (t.heap.base c) b.ptr
        generalize ht1 : t.ambiguous (E.samePointer (t.amb (t.heap.base c)) b.ptr) (t.heap.base c) b.ptr = t1 at hs
        have I1 : Inv t1 C := hs.inv I
        have hc : c ∈ t1.begins (E.key b.ptr) := by rw [hs.begins]; exact hcs c List.mem_cons_self
        have hw := I1.walk hc
        simp only [ht1, hw]
        by_cases h3 : compatible E t1 b ((C (t1.heap.base c)).getLast?.getD c)
            ((C (t1.heap.base c)).find? fun x => decide (sizecmp b.size (t1.heap.size x) ≤ 0)) = true
        · rw [if_pos h3]
          obtain ⟨C', S⟩ := I1.insertInto hc b.size
          refine ⟨C', hs.step S, fun h => ?_⟩
          have := insertInto_old h
          simp only [this]
          exact hs
        · rw [if_neg h3]
          have := ih I1 fun x hx => by rw [hs.begins]; exact hcs' x hx
          revert this
          rcases insertLoop E b cs t1 with ⟨t', _ | r⟩
          · exact fun h => hs.trans h
          · rintro ⟨C', S, h⟩
            exact ⟨C', hs.step S, fun hn => hs.trans (h hn)⟩

theorem insert_spec (E : Env) (b : Loc) {t : Tree} {C : Nat → List Nat} (I : Inv t C) :
    ∃ C', Step t (insert E t b).1 C C' (insert E t b).2.em b.size ∧
      ((insert E t b).2.isNew = false → SameNodes t (insert E t b).1) := by
  have h := insertLoop_spec E b (t.begins (E.key b.ptr)) I fun _ hc => hc
  unfold insert
  revert h
  rcases insertLoop E b (t.begins (E.key b.ptr)) t with ⟨t', _ | r⟩
  · intro hs
    refine ⟨_, hs.step ⟨(hs.inv I).newChain (E.key b.ptr) b, Nat.le_succ _, Nat.le_succ _, ?_, ?_, ?_, Nat.lt_succ_self _,
      ?_⟩, fun h => by cases h⟩
    · intro m hm
      exact upd_other _ _ _ (Nat.ne_of_lt hm)
    · intro m hm
      exact upd_other _ _ _ (Nat.ne_of_lt hm)
    · intro b' hb' _
      exact upd_other _ _ _ (Nat.ne_of_lt hb')
    · simp only [Tree.newChain]
      rw [upd_same]
      exact sizecmp_self _
  · exact id

/-- `c` is the last node of its chain. -/
def End (t : Tree) (C : Nat → List Nat) (pce : Option Nat) : Prop :=
  ∀ c, pce = some c → c < t.fresh ∧ (C (t.heap.base c)).getLast? = some c

theorem Inv.merge {t : Tree} {C : Nat → List Nat} (I : Inv t C) {pce : Option Nat} {em : Nat}
    (hE : ∀ c, pce = some c → t.heap.base c ≠ t.heap.base em → c < t.fresh ∧ (C (t.heap.base c)).getLast? = some c)
    (hem : em < t.fresh) : Inv (t.merge pce em) C ∧ (t.merge pce em).heap.base = t.heap.base ∧
      (t.merge pce em).heap.size = t.heap.size ∧ (t.merge pce em).fresh = t.fresh := by
  unfold Tree.merge
  cases pce with
  | none => exact ⟨I, rfl, rfl, rfl⟩
  | some c =>
    by_cases hb : t.heap.base c = t.heap.base em
    · simp only [if_pos hb]; exact ⟨I, trivial, trivial, trivial⟩
    · simp only [if_neg hb]
      obtain ⟨hc, hl⟩ := hE c rfl hb
      have hbd : ∀ m p, upd t.heap.par c (some em) m = some p → m < t.fresh ∧ p < t.fresh := by
        intro m p hp
        by_cases h : m = c
        · subst h
          rw [upd_same] at hp
          simp only [Option.some.injEq] at hp
          omega
        · rw [upd_other _ _ _ h] at hp
          exact I.bound m p hp
      refine ⟨⟨I.pc.mergeNext c em, ?_, ?_, ?_, I.ne, ?_, ?_, ?_, ?_, ?_⟩, mergeNext_base _ _ _, mergeNext_size _ _ _, trivial⟩
      · simp only [mergeNext_par]; exact hbd
      · simp only [mergeNext_base]; exact I.base_lt
      · simp only [mergeNext_base]; exact I.mem
      · intro b hb'
        refine (I.linked b hb').congr ?_
        intro x hx
        by_cases h : x = c
        · subst h
          have hxb : t.heap.base x = b := ((I.mem b hb' x).1 hx).2
          have h1 : t.heap.next x = none := (I.linked b hb').last (by rw [← hxb]; exact hl)
          rw [h1]
          refine next_none_of ?_
          intro p hp
          simp only [mergeNext_par] at hp
          rw [upd_same] at hp
          simp only [Option.some.injEq] at hp
          subst hp
          simp only [mergeNext_base]
          exact hb
        · refine next_congr ?_ ?_ ?_
          · simp only [mergeNext_par]; rw [upd_other _ _ _ h]
          · simp only [mergeNext_base]
          · intro p _; simp only [mergeNext_base]
      · simp only [mergeNext_size]; exact I.sorted
      · simp only [mergeNext_base]; exact I.begins
      · simp only [mergeNext_base]; exact I.key
      · simp only [mergeNext_base]; exact I.all

/-- The walk from any node of a chain finishes at the last one. -/
theorem Inv.walk_last {t : Tree} {C : Nat → List Nat} (I : Inv t C) {m : Nat} (hm : m < t.fresh) :
    (t.heap.walk t.fresh m).getLast? = (C (t.heap.base m)).getLast? := by
  have hb := I.base_lt m hm
  obtain ⟨a, d, hC⟩ := List.append_of_mem ((I.mem _ hb m).2 ⟨hm, rfl⟩)
  have hl := I.linked _ hb
  have hlen := I.length hb
  rw [hC] at hl hlen ⊢
  have hl' : Linked t.heap (m :: d) := by
    clear hC hlen
    induction a with
    | nil => exact hl
    | cons x a ih => exact ih hl.tail
  rw [hl'.walk (by simp at hlen; omega), List.getLast?_append]
  simp [List.getLast?_cons]

theorem add_inv (E : Env) : ∀ (bs : List Loc) {pce : Option Nat} {t : Tree} {C : Nat → List Nat}, Inv t C → End t C pce →
    ∃ C', Inv (add E bs pce t) C' := by
  intro bs
  induction bs with
  | nil => intro pce t C I _; exact ⟨C, I⟩
  | cons b bs ih =>
    intro pce t C I hE
    obtain ⟨C', S, hold⟩ := insert_spec E b I
    unfold add
    generalize hr : insert E t b = r at S hold
    have hE' : ∀ c, pce = some c → r.1.heap.base c ≠ r.1.heap.base r.2.em →
        c < r.1.fresh ∧ (C' (r.1.heap.base c)).getLast? = some c := by
      intro c hc hb
      obtain ⟨h1, h2⟩ := hE c hc
      refine ⟨Nat.lt_of_lt_of_le h1 S.fresh, ?_⟩
      rw [S.other _ ?_ hb, S.base c h1]
      · exact h2
      · rw [S.base c h1]; exact I.base_lt c h1
    obtain ⟨I2, hb2, hs2, hf2⟩ := S.inv.merge hE' S.em_lt
    simp only
    generalize ht2 : r.1.merge pce r.2.em = t2 at *
    by_cases h1 : (!r.2.isNew && !r.2.amb) = true
    · simp only [if_pos h1]
      by_cases h2 : pce = some r.2.em
      · simp only [if_pos h2]
        have hn : r.2.isNew = false := by
          simp only [Bool.and_eq_true, Bool.not_eq_true'] at h1
          exact h1.1
        have hsn := hold hn
        have ht : t2 = r.1 := by rw [← ht2, h2]; simp [Tree.merge]
        rw [ht]
        exact ih (hsn.inv I) fun c hc => by
          rw [hsn.fresh, hsn.heap]; exact hE c hc
      · simp only [if_neg h2]; exact ⟨C', I2⟩
    · rw [if_neg h1]
      refine ih I2 fun c hc => ?_
      have hem : r.2.em < t2.fresh := by rw [hf2]; exact S.em_lt
      rw [I2.walk_last hem] at hc
      have hbl := I2.base_lt _ hem
      have := (I2.mem _ hbl c).1 (List.mem_of_getLast? hc)
      exact ⟨this.1, by rw [this.2]; exact hc⟩

/-! ## Properties -/

/-- The tree after a history of added locations. Each location is a list of its memory levels and may be added in its
own environment, so answers of the alias analysis are arbitrary. -/
def run (hist : List (Env × List Loc)) : Tree := hist.foldl (fun t e => add e.1 e.2 none t) Tree.empty

theorem run_inv (hist : List (Env × List Loc)) : ∃ C, Inv (run hist) C := by
  unfold run
  have h : ∀ (hist : List (Env × List Loc)) (t : Tree), (∃ C, Inv t C) →
      ∃ C, Inv (hist.foldl (fun t e => add e.1 e.2 none t) t) C := by
    intro hist
    induction hist with
    | nil => intro t h; exact h
    | cons e hist ih =>
      intro t ⟨C, I⟩
      exact ih _ (add_inv e.1 e.2 I fun c hc => by cases hc)
  exact h hist _ ⟨_, Inv.empty⟩

/-- C38: the next memory of a chain is always larger and it covers the previous one if they start at the same
address. -/
theorem chain_ordered (hist : List (Env × List Loc)) {m p : Nat} (h : (run hist).heap.next m = some p) :
    sizecmp ((run hist).heap.size m) ((run hist).heap.size p) < 0 ∧
    ∀ addr, Inside (((run hist).heap.size m).bytes addr) (((run hist).heap.size p).bytes addr) := by
  obtain ⟨C, I⟩ := run_inv hist
  obtain ⟨h1, h2⟩ := next_iff.1 h
  obtain ⟨hm, hp⟩ := I.bound _ _ h1
  have hb := I.base_lt m hm
  have hl := I.linked _ hb
  have hs := I.sorted _ hb
  obtain ⟨a, d, hC⟩ := List.append_of_mem ((I.mem _ hb m).2 ⟨hm, rfl⟩)
  rw [hC] at hl hs
  have hl' : Linked (run hist).heap (m :: d) := by
    clear hC hs
    induction a with
    | nil => exact hl
    | cons x a ih => exact ih hl.tail
  have hpd : p ∈ d := hl'.next_mem List.mem_cons_self h
  have hlt := (List.pairwise_cons.1 (List.pairwise_append.1 hs).2.1).1 p hpd
  exact ⟨hlt, fun addr => sizecmp_neg hlt addr⟩

/-- C38: each memory belongs to exactly one chain and it is reachable from the first memory of this chain. -/
theorem chain_complete (hist : List (Env × List Loc)) {m : Nat} (hm : m < (run hist).fresh) :
    ∃ k c, c ∈ (run hist).begins k ∧ m ∈ (run hist).heap.walk (run hist).fresh c ∧
      ∀ k' c', c' ∈ (run hist).begins k' → m ∈ (run hist).heap.walk (run hist).fresh c' → k' = k ∧ c' = c := by
  obtain ⟨C, I⟩ := run_inv hist
  have hb := I.base_lt m hm
  obtain ⟨k, c, hc, e⟩ := I.all _ hb
  refine ⟨k, c, hc, ?_, ?_⟩
  · rw [I.walk hc, e]
    exact (I.mem _ hb m).2 ⟨hm, rfl⟩
  · intro k' c' hc' hmem
    rw [I.walk hc'] at hmem
    have hb' := I.base_lt c' (I.begins k' c' hc').1
    have e' := ((I.mem _ hb' m).1 hmem).2
    refine ⟨I.key k' k c' c hc' hc (by rw [← e', e]), ?_⟩
    have h1 := (I.begins k' c' hc').2
    have h2 := (I.begins k c hc).2
    rw [← e'] at h1
    rw [e, h1] at h2
    exact Option.some.inj h2

/-- C38: there are no two memories of the same size in a chain. -/
theorem chain_unique (hist : List (Env × List Loc)) {m p : Nat} (hm : m < (run hist).fresh) (hp : p < (run hist).fresh)
    (hb : (run hist).heap.base m = (run hist).heap.base p)
    (hs : sizecmp ((run hist).heap.size m) ((run hist).heap.size p) = 0) : m = p := by
  obtain ⟨C, I⟩ := run_inv hist
  have hbl := I.base_lt m hm
  have h1 := (I.mem _ hbl m).2 ⟨hm, rfl⟩
  have h2 := (I.mem _ hbl p).2 ⟨hp, hb.symm⟩
  by_contra hne
  have hsw : ∀ x y, sizecmp ((run hist).heap.size x) ((run hist).heap.size y) = 0 →
      ¬ sizecmp ((run hist).heap.size y) ((run hist).heap.size x) < 0 := by
    intro x y h
    revert h
    unfold sizecmp
    cases (run hist).heap.size x <;> cases (run hist).heap.size y <;> simp [Size.value] <;> (try split) <;>
      (try split) <;> (try split) <;> (try split) <;> simp <;> omega
  obtain ⟨a, d, hC⟩ := List.append_of_mem h1
  have hsrt := I.sorted _ hbl
  rw [hC] at hsrt h2
  obtain ⟨h3, h4, h5⟩ := List.pairwise_append.1 hsrt
  rcases List.mem_append.1 h2 with h | h
  · exact hsw m p hs (h5 p h m List.mem_cons_self)
  · rcases List.mem_cons.1 h with h | h
    · exact hne h.symm
    · have := (List.pairwise_cons.1 h4).1 p h
      omega

/-- C38: parents and lists of children always agree. -/
theorem parent_children (hist : List (Env × List Loc)) (m p : Nat) :
    (run hist).heap.par m = some p ↔ m ∈ (run hist).heap.ch p := by
  obtain ⟨C, I⟩ := run_inv hist
  exact I.pc.mem m p

/-- C38: the inserted location is represented by a memory of the same size. -/
theorem insert_size (hist : List (Env × List Loc)) (E : Env) (b : Loc) :
    let r := insert E (run hist) b
    r.2.em < r.1.fresh ∧ sizecmp b.size (r.1.heap.size r.2.em) = 0 ∧
    ∀ m, m < (run hist).fresh → r.1.heap.size m = (run hist).heap.size m ∧ r.1.heap.base m = (run hist).heap.base m := by
  obtain ⟨C, I⟩ := run_inv hist
  obtain ⟨C', S, -⟩ := insert_spec E b I
  exact ⟨S.em_lt, S.em_size, fun m hm => ⟨S.size m hm, S.base m hm⟩⟩

/-- C61: the previous memory is really the previous one. -/
theorem prev_sound_partial (hist : List (Env × List Loc)) {m p : Nat} (h : (run hist).heap.prev m = some p) :
    (run hist).heap.next p = some m := by
  unfold Heap.prev at h
  cases hc : (run hist).heap.ch m with
  | nil => rw [hc] at h; cases h
  | cons x l =>
    rw [hc] at h
    simp only at h
    split at h
    · rename_i hb
      simp only [Option.some.injEq] at h
      subst h
      refine next_iff.2 ⟨(parent_children hist x m).2 (by rw [hc]; exact List.mem_cons_self), hb.symm⟩
    · cases h

/-! ## A concrete case -/

/-- Pointers: an array `x` is 0, its element is 1. -/
def exEnv : Env where
  key _ := 0
  sameBase p q := p == q
  samePointer l p := if p ∈ l then .must else .no
  stripBase b := if b.ptr = 1 then some ⟨0, .precise 24⟩ else none

/-- An element of an array and parts of this array are accessed. -/
def exHist : List (Env × List Loc) :=
  [(exEnv, [⟨1, .precise 8⟩, ⟨0, .precise 24⟩]), (exEnv, [⟨0, .precise 8⟩, ⟨0, .precise 24⟩]),
   (exEnv, [⟨0, .precise 16⟩, ⟨0, .precise 24⟩])]

example : (run exHist).fresh = 4 ∧ (run exHist).heap.next 2 = some 3 ∧ (run exHist).heap.next 3 = some 1 ∧
    (run exHist).heap.par 0 = some 1 ∧ (run exHist).heap.next 0 = none ∧ (run exHist).begins 0 = [0, 2] ∧
    (run exHist).heap.walk 4 2 = [2, 3, 1] ∧ (run exHist).heap.prev 3 = some 2 := by decide +kernel

/-- C61: it is not true that the chain may be passed in the both directions: the previous memory is not found if the
first child of a memory belongs to another chain. -/
theorem prev_fails : ¬ ∀ (hist : List (Env × List Loc)) (m p : Nat), (run hist).heap.next m = some p →
    ∃ q, (run hist).heap.prev p = some q := by
  intro h
  obtain ⟨q, hq⟩ := h exHist 3 1 (by decide +kernel)
  have : (run exHist).heap.prev 1 = none := by decide +kernel
  rw [this] at hq
  cases hq

end Chain
end Alias
end Tsar
