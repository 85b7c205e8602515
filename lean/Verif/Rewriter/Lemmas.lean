import Verif.Rewriter.Model

/-!
# Auxiliary facts about a rewriter
-/

namespace Tsar.Rewriter

@[simp] theorem size_nil : size [] = 0 := rfl
@[simp] theorem size_cons (p : Piece) (d : List Piece) :
    size (p :: d) = p.count + size d := by simp [size]
@[simp] theorem size_append (d e : List Piece) : size (d ++ e) = size d + size e := by
  simp [size]
@[simp] theorem render_nil : render [] = [] := rfl
@[simp] theorem render_cons (p : Piece) (d : List Piece) :
    render (p :: d) = p.text ++ render d := by simp [render]
@[simp] theorem render_append (d e : List Piece) :
    render (d ++ e) = render d ++ render e := by simp [render]

theorem shift_get (k : Nat) (δ : Int) (m : List Int) (i : Nat) :
    (shift k δ m)[i]? = (m[i]?).map fun v => if k ≤ i then v + δ else v := by
  simp [shift, List.getElem?_mapIdx]

theorem shift_lt {k : Nat} {δ : Int} {m : List Int} {i : Nat} (h : i < k) :
    (shift k δ m)[i]? = m[i]? := by
  rw [shift_get]
  cases m[i]? <;> simp; omega

theorem shift_ge {k : Nat} {δ : Int} {m : List Int} {i : Nat} {v : Int} (h : k ≤ i)
    (e : m[i]? = some v) : (shift k δ m)[i]? = some (v + δ) := by
  rw [shift_get, e]; simp [h]

@[simp] theorem shift_length (k : Nat) (δ : Int) (m : List Int) :
    (shift k δ m).length = m.length := by simp [shift]

theorem bufReplace_mid (A B C s : List Char) :
    bufReplace (A ++ B ++ C) A.length B.length s = some (A ++ s ++ C) := by
  have h : ¬ ((A.length : Int) < 0 ∨ ((A ++ B ++ C).length : Int) < A.length) := by
    simp only [List.length_append]; push_cast; omega
  have h' : ¬ ((B.length : Int) < 0) := by omega
  unfold bufReplace
  rw [if_neg h]
  simp only [if_neg h', Int.toNat_natCast]
  congr 1
  rw [List.append_assoc A B C, List.take_left' rfl]
  congr 1
  rw [← List.append_assoc A B C, List.drop_left']
  simp

/-- Entries of pieces are known: `i` is the number of initial characters before
pieces and `o` is the number of characters of the buffer before them. -/
def MapOK (m : List Int) : Nat → Int → List Piece → Prop
  | _, _, [] => True
  | i, o, p :: d =>
    m[2 * i]? = some (o + p.pre.length) ∧
    m[2 * (i + p.count - 1) + 1]? = some (o + p.text.length - 1) ∧
    MapOK m (i + p.count) (o + p.text.length) d

theorem mapOK_append {m : List Int} {d e : List Piece} {i : Nat} {o : Int} :
    MapOK m i o (d ++ e) ↔
      MapOK m i o d ∧ MapOK m (i + size d) (o + (render d).length) e := by
  induction d generalizing i o with
  | nil => simp [MapOK]
  | cons p d ih =>
    simp only [List.cons_append, MapOK, ih, size_cons, render_cons, List.length_append]
    push_cast
    rw [show i + p.count + size d = i + (p.count + size d) by omega,
      show o + (p.text.length : Int) + (render d).length =
        o + ((p.text.length : Int) + (render d).length) by omega]
    tauto

theorem mapOK_prefix {m : List Int} {d : List Piece} {i : Nat} {o : Int} {k : Nat} {δ : Int}
    (hp : ∀ p ∈ d, 0 < p.count) (hk : 2 * (i + size d) ≤ k) (h : MapOK m i o d) :
    MapOK (shift k δ m) i o d := by
  induction d generalizing i o with
  | nil => trivial
  | cons p d ih =>
    obtain ⟨h1, h2, h3⟩ := h
    have := hp p (by simp)
    simp only [size_cons] at hk
    refine ⟨?_, ?_, ih (fun q hq => hp q (by simp [hq])) (by omega) h3⟩
    · rw [shift_lt (by omega)]; exact h1
    · rw [shift_lt (by omega)]; exact h2

theorem mapOK_suffix {m : List Int} {d : List Piece} {i : Nat} {o : Int} {k : Nat} {δ : Int}
    (hp : ∀ p ∈ d, 0 < p.count) (hk : k ≤ 2 * i) (h : MapOK m i o d) :
    MapOK (shift k δ m) i (o + δ) d := by
  induction d generalizing i o with
  | nil => trivial
  | cons p d ih =>
    obtain ⟨h1, h2, h3⟩ := h
    have := hp p (by simp)
    refine ⟨?_, ?_, ?_⟩
    · rw [shift_ge hk h1]; congr 1; omega
    · rw [shift_ge (by omega) h2]; congr 1; omega
    · have := ih (fun q hq => hp q (by simp [hq])) (by omega) h3
      rw [show o + δ + (p.text.length : Int) = o + p.text.length + δ by omega]
      exact this

theorem mapOK_last {m : List Int} {p : Piece} {d : List Piece} {i : Nat} {o : Int}
    (hp : ∀ q ∈ p :: d, 0 < q.count) (h : MapOK m i o (p :: d)) :
    m[2 * (i + size (p :: d) - 1) + 1]? = some (o + (render (p :: d)).length - 1) := by
  induction d generalizing p i o with
  | nil =>
    obtain ⟨-, h2, -⟩ := h
    simpa using h2
  | cons q d ih =>
    obtain ⟨-, -, h3⟩ := h
    have h0 := hp p (by simp)
    have h1 := hp q (by simp)
    have := ih (fun x hx => hp x (by simp at hx ⊢; tauto)) h3
    rw [size_cons, render_cons, List.length_append]
    rw [show i + (p.count + size (q :: d)) - 1 = i + p.count + size (q :: d) - 1 by omega, this]
    congr 1; push_cast; omega

/-- The relation between states of a rewriter and documents. -/
structure Inv (r : Rw) (d : List Piece) : Prop where
  buf : r.buf = render d
  pos : ∀ p ∈ d, 0 < p.count
  org : ∀ p ∈ d, p.orig = true → p.count = 1 ∧ p.body.length = 1
  ok : MapOK r.map 0 0 d

theorem inv_init (t : List Char) : Inv (init t) (doc t) := by
  refine ⟨?_, ?_, ?_, ?_⟩
  · show t = render (doc t)
    induction t with
    | nil => rfl
    | cons c t ih => simp only [doc, List.map_cons, render_cons] at ih ⊢; rw [← ih]; rfl
  · intro p hp; simp only [doc, List.mem_map] at hp; obtain ⟨c, -, rfl⟩ := hp; simp
  · intro p hp _; simp only [doc, List.mem_map] at hp; obtain ⟨c, -, rfl⟩ := hp; simp
  · suffices ∀ (u t : List Char) (i : Nat), i + u.length ≤ t.length →
        MapOK (init t).map i i (doc u) by
      have := this t t 0 (by simp)
      simpa using this
    intro u t
    induction u with
    | nil => intro i _; trivial
    | cons c u ih =>
      intro i hi
      simp only [List.length_cons] at hi
      refine ⟨?_, ?_, ?_⟩
      · simp only [init, List.getElem?_map, List.length_nil]
        rw [List.getElem?_range (by omega)]
        simp
      · simp only [init, List.getElem?_map, Nat.add_sub_cancel, Piece.text]
        rw [List.getElem?_range (by omega)]
        simp; omega
      · have := ih (i + 1) (by omega)
        simpa [doc, Piece.text] using this

theorem step_ok {r : Rw} {d d' : List Piece} {o : Op} (h : Inv r d) (hs : Step d o d') :
    ∃ r', apply r o = some r' ∧ Inv r' d' ∧ r'.map.length = r.map.length := by
  obtain ⟨hb, hp, ho, hk⟩ := h
  cases hs with
  | @before l p m s =>
    rw [mapOK_append] at hk
    obtain ⟨hk1, hk2⟩ := hk
    obtain ⟨h1, h2, h3⟩ := hk2
    simp only [Nat.zero_add, Int.zero_add] at h1 h2 h3
    have hpp := hp p (by simp)
    have e : bufReplace r.buf ((render l).length + p.pre.length) 0 s =
        some (render l ++ p.pre ++ s ++ (p.mid ++ p.body ++ render m)) := by
      have := bufReplace_mid (render l ++ p.pre) [] (p.mid ++ p.body ++ render m) s
      rw [hb]
      simpa [Piece.text] using this
    refine ⟨⟨render l ++ p.pre ++ s ++ (p.mid ++ p.body ++ render m),
      shift (2 * size l) s.length r.map⟩, ?_, ⟨?_, ?_, ?_, ?_⟩, by simp⟩
    · simp only [apply, insertText, Bool.false_eq_true, if_false, h1, e]
    · simp [Piece.text]
    · intro q hq
      simp only [List.mem_append, List.mem_cons] at hq
      rcases hq with hq | rfl | hq
      · exact hp q (by simp [hq])
      · exact hpp
      · exact hp q (by simp [hq])
    · intro q hq
      simp only [List.mem_append, List.mem_cons] at hq
      rcases hq with hq | rfl | hq
      · exact ho q (by simp [hq])
      · exact ho p (by simp)
      · exact ho q (by simp [hq])
    · rw [mapOK_append]
      refine ⟨mapOK_prefix (fun q hq => hp q (by simp [hq])) (by omega) hk1, ?_, ?_, ?_⟩
      · simp only [Nat.zero_add, Int.zero_add]
        rw [shift_ge (Nat.le_refl _) h1]; congr 1; simp only [List.length_append]; push_cast; omega
      · simp only [Nat.zero_add, Int.zero_add]
        rw [shift_ge (by omega) h2]; congr 1
        simp only [Piece.text, List.length_append]; push_cast; omega
      · simp only [Nat.zero_add, Int.zero_add]
        have := mapOK_suffix (k := 2 * size l) (δ := s.length)
          (fun q hq => hp q (by simp [hq])) (by omega) h3
        convert this using 1
        simp only [Piece.text, List.length_append]; push_cast; omega
  | @after l p m s horig =>
    rw [mapOK_append] at hk
    obtain ⟨hk1, hk2⟩ := hk
    obtain ⟨h1, h2, h3⟩ := hk2
    simp only [Nat.zero_add, Int.zero_add] at h1 h2 h3
    obtain ⟨hc, hbl⟩ := ho p (by simp) horig
    rw [hc] at h2 h3
    simp only [Nat.add_sub_cancel] at h2
    have h2' : r.map[2 * size l + 1]? =
        some (((render l).length : Int) + (p.pre.length + p.mid.length)) := by
      rw [h2]; congr 1; simp only [Piece.text, List.length_append, hbl]; push_cast; omega
    have e : bufReplace r.buf ((render l).length + (p.pre.length + p.mid.length)) 0 s =
        some (render l ++ p.pre ++ p.mid ++ s ++ (p.body ++ render m)) := by
      have := bufReplace_mid (render l ++ p.pre ++ p.mid) [] (p.body ++ render m) s
      rw [hb]
      simpa [Piece.text] using this
    refine ⟨⟨render l ++ p.pre ++ p.mid ++ s ++ (p.body ++ render m),
      shift (2 * size l + 1) s.length r.map⟩, ?_, ⟨?_, ?_, ?_, ?_⟩, by simp⟩
    · simp only [apply, insertText, if_true, h2', e]
    · simp [Piece.text]
    · intro q hq
      simp only [List.mem_append, List.mem_cons] at hq
      rcases hq with hq | rfl | hq
      · exact hp q (by simp [hq])
      · exact hp p (by simp)
      · exact hp q (by simp [hq])
    · intro q hq
      simp only [List.mem_append, List.mem_cons] at hq
      rcases hq with hq | rfl | hq
      · exact ho q (by simp [hq])
      · exact ho p (by simp)
      · exact ho q (by simp [hq])
    · rw [mapOK_append]
      refine ⟨mapOK_prefix (fun q hq => hp q (by simp [hq])) (by omega) hk1, ?_, ?_, ?_⟩
      · simp only [Nat.zero_add, Int.zero_add]
        rw [shift_lt (by omega), h1]
      · simp only [Nat.zero_add, Int.zero_add, hc, Nat.add_sub_cancel]
        rw [shift_ge (by omega) h2]; congr 1
        simp only [Piece.text, List.length_append]; push_cast; omega
      · simp only [Nat.zero_add, Int.zero_add, hc]
        have := mapOK_suffix (k := 2 * size l + 1) (δ := s.length)
          (fun q hq => hp q (by simp [hq])) (by omega) h3
        convert this using 1
        simp only [Piece.text, List.length_append]; push_cast; omega
  | @replace l p m rr s =>
    rw [List.append_assoc, mapOK_append, mapOK_append] at hk
    obtain ⟨hk1, hk2, hk3⟩ := hk
    simp only [Nat.zero_add, Int.zero_add] at hk2 hk3
    have hq : ∀ q ∈ p :: m, 0 < q.count := fun q hq => hp q (by
      simp only [List.mem_cons, List.mem_append] at hq ⊢; tauto)
    have hl := mapOK_last hq hk2
    have h1 := hk2.1
    have hpp := hq p (by simp)
    have hs : 0 < size (p :: m) := by simp only [size_cons]; omega
    have e : bufReplace r.buf ((render l).length + p.pre.length)
        ((render l).length + (render (p :: m)).length - 1 + 1 -
          ((render l).length + p.pre.length)) s =
        some (render l ++ p.pre ++ s ++ render rr) := by
      have := bufReplace_mid (render l ++ p.pre) (p.mid ++ p.body ++ render m) (render rr) s
      rw [hb]
      convert this using 2
      · simp [Piece.text]
      · simp
      · simp [Piece.text]; omega
    refine ⟨⟨render l ++ p.pre ++ s ++ render rr,
      shift (2 * (size l + size (p :: m) - 1) + 1)
        ((s.length : Int) - ((render l).length + (render (p :: m)).length - 1 + 1 -
          ((render l).length + p.pre.length))) r.map⟩, ?_, ⟨?_, ?_, ?_, ?_⟩, by simp⟩
    · simp only [apply, replaceText]
      rw [if_neg (by omega), h1, hl]
      simp only [e]
    · simp [Piece.text]
    · intro q hq'
      simp only [List.mem_append, List.mem_cons] at hq'
      rcases hq' with hq' | rfl | hq'
      · exact hp q (by simp [hq'])
      · exact hs
      · exact hp q (by simp [hq'])
    · intro q hq'
      simp only [List.mem_append, List.mem_cons] at hq'
      rcases hq' with hq' | rfl | hq'
      · exact ho q (by simp [hq'])
      · intro h; simp at h
      · exact ho q (by simp [hq'])
    · rw [mapOK_append]
      refine ⟨mapOK_prefix (fun q hq => hp q (by simp [hq])) (by omega) hk1, ?_, ?_, ?_⟩
      · simp only [Nat.zero_add, Int.zero_add]
        rw [shift_lt (by omega), h1]
      · simp only [Nat.zero_add, Int.zero_add]
        rw [shift_ge (by omega) hl]; congr 1
        simp only [Piece.text, List.length_append, List.length_nil]; push_cast; omega
      · simp only [Nat.zero_add, Int.zero_add]
        have := mapOK_suffix (k := 2 * (size l + size (p :: m) - 1) + 1)
          (δ := (s.length : Int) - ((render l).length + (render (p :: m)).length - 1 + 1 -
            ((render l).length + p.pre.length)))
          (fun q hq => hp q (by simp [hq])) (by omega) hk3
        convert this using 1
        simp only [Piece.text, List.length_append, List.length_nil]; push_cast; omega

theorem steps_ok {r : Rw} {d d' : List Piece} {os : List Op} (h : Inv r d)
    (hs : Steps d os d') :
    ∃ r', run r os = some r' ∧ Inv r' d' ∧ r'.map.length = r.map.length := by
  induction hs generalizing r with
  | nil => exact ⟨r, rfl, h, rfl⟩
  | cons hs _ ih =>
    obtain ⟨r1, e1, i1, l1⟩ := step_ok h hs
    obtain ⟨r2, e2, i2, l2⟩ := ih i1
    exact ⟨r2, by simp [run, e1, e2], i2, by omega⟩

theorem get_ok {r : Rw} {l : List Piece} {p : Piece} {m x : List Piece}
    (h : Inv r (l ++ (p :: m) ++ x)) :
    getRewrittenText r (size l) (size (p :: m)) = some (p.mid ++ p.body ++ render m) := by
  obtain ⟨hb, hp, -, hk⟩ := h
  rw [List.append_assoc, mapOK_append, mapOK_append] at hk
  obtain ⟨-, hk2, -⟩ := hk
  simp only [Nat.zero_add, Int.zero_add] at hk2
  have hq : ∀ q ∈ p :: m, 0 < q.count := fun q hq => hp q (by
    simp only [List.mem_cons, List.mem_append] at hq ⊢; tauto)
  have hl := mapOK_last hq hk2
  have h1 := hk2.1
  have hpp := hq p (by simp)
  have hs : 0 < size (p :: m) := by simp only [size_cons]; omega
  unfold getRewrittenText
  rw [if_neg (by omega), h1, hl]
  simp only
  have e1 : ((render l).length + p.pre.length : Int).toNat = (render l ++ p.pre).length := by
    simp; omega
  have e2 : (((render l).length : Int) + (render (p :: m)).length - 1 + 1 -
      ((render l).length + p.pre.length)).toNat = (p.mid ++ p.body ++ render m).length := by
    simp [Piece.text]; omega
  rw [if_pos]
  · rw [e1, e2, hb]
    congr 1
    have : render (l ++ (p :: m) ++ x) =
        (render l ++ p.pre) ++ ((p.mid ++ p.body ++ render m) ++ render x) := by
      simp [Piece.text]
    rw [this, List.drop_left' rfl, List.take_left' rfl]
  · rw [hb]
    simp only [render_append, render_cons, List.length_append, Piece.text]
    push_cast
    refine ⟨by omega, by omega, by omega⟩

/-! ### Splits of a document -/

theorem split_le {l₁ r₁ l₂ r₂ : List Piece} (hp : ∀ p ∈ l₁ ++ r₁, 0 < p.count)
    (e : l₁ ++ r₁ = l₂ ++ r₂) (h : size l₁ ≤ size l₂) :
    ∃ x, l₂ = l₁ ++ x ∧ r₁ = x ++ r₂ := by
  rcases List.append_eq_append_iff.1 e with ⟨x, h1, h2⟩ | ⟨x, h1, h2⟩
  · exact ⟨x, h1, h2⟩
  · have : size x = 0 := by rw [h1] at h; simp at h; omega
    cases x with
    | nil => exact ⟨[], by simpa using h1.symm, by simpa using h2.symm⟩
    | cons q x =>
      have := hp q (by simp [h1])
      simp at *; omega

theorem split_eq {l₁ r₁ l₂ r₂ : List Piece} (hp : ∀ p ∈ l₁ ++ r₁, 0 < p.count)
    (e : l₁ ++ r₁ = l₂ ++ r₂) (h : size l₁ = size l₂) : l₁ = l₂ ∧ r₁ = r₂ := by
  obtain ⟨x, h1, h2⟩ := split_le hp e (by omega)
  cases x with
  | nil => exact ⟨by simpa using h1.symm, by simpa using h2⟩
  | cons q x =>
    have := hp q (by simp [h2])
    rw [h1] at h
    simp at h; omega

theorem step_det {d d₁ d₂ : List Piece} {o : Op} (hp : ∀ p ∈ d, 0 < p.count)
    (h₁ : Step d o d₁) (h₂ : Step d o d₂) : d₁ = d₂ := by
  generalize hd : d = d' at h₂
  generalize ho : o = o' at h₂
  cases h₁ with
  | before =>
    cases h₂ with
    | before =>
      simp only [Op.insert.injEq] at ho
      obtain ⟨hs, rfl, -⟩ := ho
      obtain ⟨rfl, e⟩ := split_eq hp hd hs
      simp only [List.cons.injEq] at e
      obtain ⟨rfl, rfl⟩ := e
      rfl
    | after => simp at ho
    | replace => simp at ho
  | after =>
    cases h₂ with
    | before => simp at ho
    | after =>
      simp only [Op.insert.injEq] at ho
      obtain ⟨hs, rfl, -⟩ := ho
      obtain ⟨rfl, e⟩ := split_eq hp hd hs
      simp only [List.cons.injEq] at e
      obtain ⟨rfl, rfl⟩ := e
      rfl
    | replace => simp at ho
  | replace =>
    cases h₂ with
    | before => simp at ho
    | after => simp at ho
    | replace =>
      simp only [Op.replace.injEq] at ho
      obtain ⟨hs, hl, rfl⟩ := ho
      rw [List.append_assoc] at hd hp
      rw [List.append_assoc] at hd
      obtain ⟨rfl, e⟩ := split_eq hp hd hs
      obtain ⟨e1, rfl⟩ := split_eq (fun q hq => hp q (by
        simp only [List.mem_append] at hq ⊢; tauto)) e hl
      simp only [List.cons.injEq] at e1
      obtain ⟨rfl, rfl⟩ := e1
      rfl

theorem steps_det {d d₁ d₂ : List Piece} {os : List Op} {r : Rw} (h : Inv r d)
    (h₁ : Steps d os d₁) (h₂ : Steps d os d₂) : d₁ = d₂ := by
  induction h₁ generalizing r d₂ with
  | nil => cases h₂; rfl
  | cons hs _ ih =>
    cases h₂ with
    | cons hs' t' =>
      have := step_det h.pos hs hs'
      subst this
      obtain ⟨r1, -, i1, -⟩ := step_ok h hs
      exact ih i1 t'

/-! ### Allowed requests have a meaning -/

/-- Ends of pieces are places which are not inside of replaced ranges. -/
structure Cuts (n : Nat) (reps : List (Nat × Nat)) (d : List Piece) : Prop where
  total : size d = n
  pos : ∀ p ∈ d, 0 < p.count
  cut : ∀ c ≤ n, (∀ q ∈ reps, ¬ (q.1 < c ∧ c < q.1 + q.2)) →
    ∃ l x, d = l ++ x ∧ size l = c
  org : ∀ c < n, (∀ q ∈ reps, ¬ (q.1 ≤ c ∧ c < q.1 + q.2)) →
    ∃ l p x, d = l ++ p :: x ∧ size l = c ∧ p.orig = true

theorem cuts_doc (t : List Char) : Cuts t.length [] (doc t) := by
  have hs : ∀ u : List Char, size (doc u) = u.length := by
    intro u; induction u with
    | nil => rfl
    | cons c u ih => simp only [doc, List.map_cons, size_cons, List.length_cons] at ih ⊢; omega
  refine ⟨hs t, ?_, ?_, ?_⟩
  · intro p hp; simp only [doc, List.mem_map] at hp; obtain ⟨c, -, rfl⟩ := hp; simp
  · intro c hc _
    refine ⟨doc (t.take c), doc (t.drop c), ?_, ?_⟩
    · simp only [doc, ← List.map_append, List.take_append_drop]
    · rw [hs]; simp; omega
  · intro c hc _
    refine ⟨doc (t.take c), ⟨1, [], [], [t[c]], true⟩, doc (t.drop (c + 1)), ?_, ?_, rfl⟩
    · have e : t = t.take c ++ t[c] :: t.drop (c + 1) := by
        rw [← List.drop_eq_getElem_cons hc, List.take_append_drop]
      have e' := congrArg doc e
      rw [e']
      simp only [doc, List.map_append, List.map_cons]
    · rw [hs]; simp; omega

theorem cuts_congr {n : Nat} {reps : List (Nat × Nat)} {l : List Piece} {p p' : Piece}
    {x : List Piece} (hc : p'.count = p.count) (ho : p'.orig = p.orig)
    (h : Cuts n reps (l ++ p :: x)) : Cuts n reps (l ++ p' :: x) := by
  have key : ∀ a y, l ++ p :: x = a ++ y → ∃ a' y', l ++ p' :: x = a' ++ y' ∧
      size a' = size a ∧ ((∃ q z, y = q :: z ∧ q.orig = true) →
        ∃ q z, y' = q :: z ∧ q.orig = true) := by
    intro a y e
    rcases List.append_eq_append_iff.1 e with ⟨z, h1, h2⟩ | ⟨z, h1, h2⟩
    · cases z with
      | nil =>
        simp only [List.append_nil, List.nil_append] at h1 h2
        refine ⟨l, p' :: x, rfl, by rw [h1], ?_⟩
        rintro ⟨q, z, e, hq⟩
        rw [e, List.cons.injEq] at h2
        exact ⟨p', x, rfl, by rw [ho, h2.1]; exact hq⟩
      | cons q z =>
        simp only [List.cons_append, List.cons.injEq] at h2
        obtain ⟨rfl, rfl⟩ := h2
        exact ⟨l ++ p' :: z, y, by simp, by rw [h1]; simp [hc], fun h => h⟩
    · cases z with
      | nil =>
        simp only [List.append_nil, List.nil_append] at h1 h2
        refine ⟨l, p' :: x, rfl, by rw [h1], ?_⟩
        rintro ⟨q, z, e, hq⟩
        rw [e, List.cons.injEq] at h2
        exact ⟨p', x, rfl, by rw [ho, ← h2.1]; exact hq⟩
      | cons q z =>
        refine ⟨a, q :: z ++ p' :: x, by rw [h1]; simp, rfl, ?_⟩
        rintro ⟨q', z', e, hq⟩
        rw [e] at h2
        simp only [List.cons_append, List.cons.injEq] at h2
        exact ⟨q, z ++ p' :: x, by simp, by rw [← h2.1]; exact hq⟩
  obtain ⟨h1, h2, h3, h4⟩ := h
  refine ⟨by rw [← h1]; simp [hc], ?_, ?_, ?_⟩
  · intro q hq
    simp only [List.mem_append, List.mem_cons] at hq
    rcases hq with hq | rfl | hq
    · exact h2 q (by simp [hq])
    · rw [hc]; exact h2 p (by simp)
    · exact h2 q (by simp [hq])
  · intro c hc' hq
    obtain ⟨a, y, e, hs⟩ := h3 c hc' hq
    obtain ⟨a', y', e', hs', -⟩ := key a y e
    exact ⟨a', y', e', by omega⟩
  · intro c hc' hq
    obtain ⟨a, q, y, e, hs, hor⟩ := h4 c hc' hq
    obtain ⟨a', y', e', hs', k⟩ := key a (q :: y) e
    obtain ⟨q', z', e'', hor'⟩ := k ⟨q, y, rfl, hor⟩
    exact ⟨a', q', z', by rw [e', e''], by omega, hor'⟩

theorem cuts_replace {n : Nat} {reps : List (Nat × Nat)} {l : List Piece} {p : Piece}
    {m x : List Piece} {s : List Char} (h : Cuts n reps (l ++ (p :: m) ++ x)) :
    Cuts n ((size l, size (p :: m)) :: reps)
      (l ++ ⟨size (p :: m), p.pre, [], s, false⟩ :: x) := by
  obtain ⟨h1, h2, h3, h4⟩ := h
  have hpp := h2 p (by simp)
  refine ⟨?_, ?_, ?_, ?_⟩
  · rw [← h1]; simp only [size_append, size_cons]; omega
  · intro q hq
    simp only [List.mem_append, List.mem_cons] at hq
    rcases hq with hq | rfl | hq
    · exact h2 q (by simp [hq])
    · simp only [size_cons]; omega
    · exact h2 q (by simp [hq])
  · intro c hc hq
    have hq0 := hq _ (List.mem_cons_self ..)
    simp only at hq0
    obtain ⟨a, y, e, hs⟩ := h3 c hc (fun q hq' => hq q (List.mem_cons_of_mem _ hq'))
    rcases Nat.lt_or_ge (size l) c with hlt | hge
    · have : size (l ++ (p :: m)) ≤ size a := by rw [size_append]; omega
      obtain ⟨z, rfl, rfl⟩ := split_le h2 e this
      refine ⟨l ++ ⟨size (p :: m), p.pre, [], s, false⟩ :: z, y, by simp, ?_⟩
      rw [← hs]; simp only [size_append, size_cons]; omega
    · rw [List.append_assoc] at e
      obtain ⟨z, rfl, -⟩ := split_le (l₁ := a) (r₁ := y) (l₂ := l) (by rw [← e, ← List.append_assoc]; exact h2)
        e.symm (by omega)
      exact ⟨a, z ++ ⟨size (p :: m), p.pre, [], s, false⟩ :: x, by simp, hs⟩
  · intro c hc hq
    have hq0 := hq _ (List.mem_cons_self ..)
    simp only at hq0
    obtain ⟨a, q, y, e, hs, hor⟩ := h4 c hc (fun q hq' => hq q (List.mem_cons_of_mem _ hq'))
    rcases Nat.lt_or_ge c (size l) with hlt | hge
    · rw [List.append_assoc] at e
      obtain ⟨z, rfl, h⟩ := split_le (l₁ := a) (r₁ := q :: y) (l₂ := l)
        (by rw [← e, ← List.append_assoc]; exact h2) e.symm (by omega)
      cases z with
      | nil => simp only [List.append_nil] at hlt; omega
      | cons q' z =>
        simp only [List.cons_append, List.cons.injEq] at h
        refine ⟨a, q', z ++ ⟨size (p :: m), p.pre, [], s, false⟩ :: x, by simp, hs, ?_⟩
        rw [← h.1]; exact hor
    · have : size (l ++ (p :: m)) ≤ size a := by rw [size_append]; omega
      obtain ⟨z, rfl, rfl⟩ := split_le h2 e this
      refine ⟨l ++ ⟨size (p :: m), p.pre, [], s, false⟩ :: z, q, y, by simp, ?_, hor⟩
      rw [← hs]; simp only [size_append, size_cons]; omega

theorem allowed_step {n : Nat} {reps : List (Nat × Nat)} {d : List Piece} {o : Op}
    (h : Cuts n reps d) (ha : Allowed n reps o) :
    ∃ d', Step d o d' ∧ Cuts n (replaced reps o) d' := by
  cases o with
  | replace b len s =>
    obtain ⟨h0, hn, hq⟩ := ha
    obtain ⟨l, x, e, hs⟩ := h.cut b (by omega) (fun q hq' => by have := hq q hq'; omega)
    obtain ⟨l2, x2, e2, hs2⟩ := h.cut (b + len) (by omega)
      (fun q hq' => by have := hq q hq'; omega)
    obtain ⟨m, rfl, rfl⟩ := split_le (by rw [← e]; exact h.pos) (e ▸ e2) (by omega)
    cases m with
    | nil => simp at hs2; omega
    | cons p m =>
      subst e2
      rw [size_append] at hs2
      obtain rfl : size (p :: m) = len := by omega
      subst hs
      exact ⟨_, .replace, cuts_replace h⟩
  | insert b s after =>
    obtain ⟨hn, hq⟩ := ha
    cases after with
    | false =>
      obtain ⟨l, x, e, hs⟩ := h.cut b (by omega) (fun q hq' => by have := hq q hq'; omega)
      cases x with
      | nil =>
        have := h.total
        rw [e] at this
        simp at this; omega
      | cons p x =>
        subst e hs
        exact ⟨_, .before, cuts_congr (p := p) rfl rfl h⟩
    | true =>
      obtain ⟨l, p, x, e, hs, hor⟩ := h.org b (by omega) (fun q hq' => by
        have := hq q hq'; simp at this; omega)
      subst e hs
      exact ⟨_, .after hor, cuts_congr (p := p) rfl rfl h⟩

theorem allowed_steps {n : Nat} {reps : List (Nat × Nat)} {d : List Piece} {os : List Op}
    (h : Cuts n reps d) (ha : AllAllowed n reps os) : ∃ d', Steps d os d' := by
  induction os generalizing reps d with
  | nil => exact ⟨d, .nil⟩
  | cons o os ih =>
    obtain ⟨d1, h1, c1⟩ := allowed_step h ha.1
    obtain ⟨d2, h2⟩ := ih c1 ha.2
    exact ⟨d2, .cons h1 h2⟩

end Tsar.Rewriter
