import Verif.Inline.Lang
/-!
# Correspondence between frames of an original program and of an expanded one
-/
namespace Tsar.Inline

def names (l : Frame) : List Name := l.map Prod.fst

theorem find_none {l : Frame} {x : Name} : find l x = none ↔ x ∉ names l := by
  induction l with
  | nil => simp [find, names]
  | cons a l ih =>
    obtain ⟨y, c⟩ := a
    unfold find
    split
    · rename_i h; simp [names, h]
    · rename_i h; rw [ih]; simp [names, h]

theorem names_setF (l : Frame) (x : Name) (v : Val) : names (setF l x v) = names l := by
  induction l with
  | nil => rfl
  | cons a l ih =>
    obtain ⟨y, c⟩ := a
    unfold setF
    split
    · rfl
    · simpa [names] using ih

theorem length_setF (l : Frame) (x : Name) (v : Val) : (setF l x v).length = l.length := by
  have := congrArg List.length (names_setF l x v)
  simpa [names] using this

theorem setF_append {a b : Frame} {x : Name} {v : Val} (h : x ∉ names a) :
    setF (a ++ b) x v = a ++ setF b x v := by
  induction a with
  | nil => rfl
  | cons p a ih =>
    obtain ⟨y, c⟩ := p
    simp only [names, List.map_cons, List.mem_cons, not_or] at h
    simp only [List.cons_append, setF, if_neg h.1]
    rw [ih h.2]

theorem find_append {a b : Frame} {x : Name} (h : x ∉ names a) : find (a ++ b) x = find b x := by
  induction a with
  | nil => rfl
  | cons p a ih =>
    obtain ⟨y, c⟩ := p
    simp only [names, List.map_cons, List.mem_cons, not_or] at h
    simp only [List.cons_append, find, if_neg h.1]
    exact ih h.2

theorem bot_append (a b : Frame) : bot b.length (a ++ b) = b := by
  simp [bot]

theorem bot_append_of {a b : Frame} {n : Nat} (h : b.length = n) : bot n (a ++ b) = b := by
  subst h; exact bot_append a b

theorem bot_self (a : Frame) : bot a.length a = a := by simp [bot]

/-- An entry of a frame of the expanded program: it corresponds to a variable of the original one, its
name may differ, or it is a new one. -/
inductive Ent
  | pair (x y : Name)
  | junk (y : Name) (c : Cell)

abbrev Shape := List Ent

def Ent.new : Ent → Name
  | .pair _ y => y
  | .junk y _ => y

def Ent.old : Ent → Option Name
  | .pair x _ => some x
  | .junk _ _ => none

/-- Names in the expanded program. -/
def news (sh : Shape) : List Name := sh.map Ent.new
/-- Names in the original program. -/
def olds (sh : Shape) : List Name := sh.filterMap Ent.old

/-- Correspondence of frames. The frame `K` of functions which are being expanded is below. -/
def FR (K : Frame) : Shape → Frame → Frame → Prop
  | [], L, L' => L = [] ∧ L' = K
  | .junk r c :: sh, L, L' => ∃ T', L' = (r, c) :: T' ∧ FR K sh L T'
  | .pair x x' :: sh, L, L' => ∃ c T T', L = (x, c) :: T ∧ L' = (x', c) :: T' ∧ FR K sh T T'

/-- New names are unique and differ from names of the original program. -/
def WF (Old : Name → Prop) (K : Frame) : Shape → Prop
  | [] => True
  | a :: sh => (match a with
      | .junk y _ => ¬ Old y
      | .pair x y => Old x ∧ (Old y → y = x)) ∧
    (¬ Old a.new → a.new ∉ news sh ∧ a.new ∉ names K) ∧ WF Old K sh

/-- A new name of a variable. -/
def mOf : Shape → Name → Name
  | [], x => x
  | .pair y z :: sh, x => if x = y then z else mOf sh x
  | .junk _ _ :: sh, x => mOf sh x

variable {Old : Name → Prop} {K : Frame}

theorem FR.names_left {sh : Shape} {L L' : Frame} (h : FR K sh L L') : names L = olds sh := by
  induction sh generalizing L L' with
  | nil => obtain ⟨rfl, _⟩ := h; rfl
  | cons a sh ih =>
    cases a with
    | junk r c => obtain ⟨T', _, h⟩ := h; simpa [olds, Ent.old, List.filterMap_cons] using ih h
    | pair x y =>
      obtain ⟨c, T, T', rfl, _, h⟩ := h
      simpa [names, olds, Ent.old] using ih h

theorem FR.names_right {sh : Shape} {L L' : Frame} (h : FR K sh L L') :
    names L' = news sh ++ names K := by
  induction sh generalizing L L' with
  | nil => obtain ⟨_, rfl⟩ := h; rfl
  | cons a sh ih =>
    cases a with
    | junk r c =>
      obtain ⟨T', rfl, h⟩ := h
      have := ih h
      simp only [names] at this ⊢
      simp [news, Ent.new, this]
    | pair x y =>
      obtain ⟨c, T, T', _, rfl, h⟩ := h
      have := ih h
      simp only [names] at this ⊢
      simp [news, Ent.new, this]

theorem mOf_notin {sh : Shape} {x : Name} (h : x ∉ olds sh) : mOf sh x = x := by
  induction sh with
  | nil => rfl
  | cons a sh ih =>
    cases a with
    | junk r c => exact ih (by simpa [olds, Ent.old] using h)
    | pair y z =>
      have h' : x ≠ y ∧ x ∉ olds sh := by simpa [olds, Ent.old] using h
      simp only [mOf, if_neg h'.1]
      exact ih h'.2

theorem mOf_old {sh : Shape} {x : Name} (hw : WF Old K sh) (hx : Old x) :
    (Old (mOf sh x) → mOf sh x = x) ∧ (¬ Old (mOf sh x) → Ent.pair x (mOf sh x) ∈ sh) := by
  induction sh with
  | nil => exact ⟨fun _ => rfl, fun h => absurd hx h⟩
  | cons a sh ih =>
    obtain ⟨h₁, _, h₃⟩ := hw
    cases a with
    | junk r c =>
      simp only [mOf]
      exact ⟨(ih h₃).1, fun h => .tail _ ((ih h₃).2 h)⟩
    | pair y z =>
      by_cases hxy : x = y
      · subst hxy
        simp only [mOf, if_true]
        exact ⟨h₁.2, fun _ => .head _⟩
      · simp only [mOf, if_neg hxy]
        exact ⟨(ih h₃).1, fun h => .tail _ ((ih h₃).2 h)⟩

theorem mem_news {sh : Shape} {a : Ent} (h : a ∈ sh) : a.new ∈ news sh := List.mem_map_of_mem h

theorem WF.tail {a : Ent} {sh : Shape} (h : WF Old K (a :: sh)) : WF Old K sh := h.2.2

/-- New names are not names of variables of the original program. -/
theorem mOf_ne_junk {sh : Shape} {x y : Name} {c : Cell} (hw : WF Old K sh) (hx : Old x)
    (hj : Ent.junk y c ∈ sh) : mOf sh x ≠ y := by
  intro he
  have hyn : ¬ Old y := by
    clear he
    induction sh with
    | nil => cases hj
    | cons a sh ih =>
      rcases List.mem_cons.1 hj with rfl | hj'
      · exact hw.1
      · exact ih hw.tail hj'
  have hp := (mOf_old hw hx).2 (by rw [he]; exact hyn)
  rw [he] at hp
  clear he
  induction sh with
  | nil => cases hj
  | cons a sh ih =>
    rcases List.mem_cons.1 hj with rfl | hj'
    · rcases List.mem_cons.1 hp with h | hp'
      · cases h
      · have := mem_news hp'
        exact (hw.2.1 hyn).1 this
    · rcases List.mem_cons.1 hp with h | hp'
      · subst h
        have := mem_news hj'
        exact (hw.2.1 hyn).1 this
      · exact ih hw.tail hj' hp'

/-- The head of a shape is not a new name of another variable. -/
theorem mOf_ne_head {a : Ent} {sh : Shape} {x : Name} (hw : WF Old K (a :: sh)) (hx : Old x)
    (ha : a.old ≠ some x) : mOf sh x ≠ a.new := by
  intro he
  by_cases ho : Old (mOf sh x)
  · have h := (mOf_old hw.tail hx).1 ho
    have h₁ := hw.1
    cases a with
    | junk y c =>
      simp only [Ent.new] at he
      exact h₁ (he ▸ ho)
    | pair z y =>
      simp only [Ent.new] at he
      have := h₁.2 (he ▸ ho)
      exact ha (by simp [Ent.old]; rw [← this, ← he, h])
  · have := (mOf_old hw.tail hx).2 ho
    refine (hw.2.1 (he ▸ ho)).1 ?_
    rw [← he]
    exact mem_news this

theorem FR.find {sh : Shape} {L L' : Frame} {x : Name} (h : FR K sh L L') (hw : WF Old K sh)
    (hx : Old x) (hK : x ∈ olds sh ∨ x ∉ names K) :
    Inline.find L' (mOf sh x) = Inline.find L x := by
  induction sh generalizing L L' with
  | nil =>
    obtain ⟨rfl, rfl⟩ := h
    have hK : x ∉ names L' := by rcases hK with h | h; · cases h
                                 · exact h
    simpa [mOf, Inline.find] using find_none.2 hK
  | cons a sh ih =>
    cases a with
    | junk r c =>
      obtain ⟨T', rfl, h⟩ := h
      have hne := mOf_ne_junk (sh := Ent.junk r c :: sh) hw hx (.head _)
      simp only [mOf] at hne ⊢
      rw [Inline.find, if_neg hne]
      exact ih h hw.tail (by simpa [olds, Ent.old] using hK)
    | pair y z =>
      obtain ⟨c, T, T', rfl, rfl, h⟩ := h
      by_cases hxy : x = y
      · subst hxy
        simp [mOf, Inline.find]
      · have hne : mOf sh x ≠ z := mOf_ne_head hw hx (by simpa [Ent.old] using Ne.symm hxy)
        simp only [mOf, if_neg hxy, Inline.find, if_neg hne]
        exact ih h hw.tail (by simpa [olds, Ent.old, hxy] using hK)

theorem FR.set {sh : Shape} {L L' : Frame} {x : Name} (v : Val) (h : FR K sh L L') (hw : WF Old K sh)
    (hx : Old x) (hL : x ∈ olds sh) : FR K sh (setF L x v) (setF L' (mOf sh x) v) := by
  induction sh generalizing L L' with
  | nil => cases hL
  | cons a sh ih =>
    cases a with
    | junk r c =>
      obtain ⟨T', rfl, h⟩ := h
      have hne := mOf_ne_junk (sh := Ent.junk r c :: sh) hw hx (.head _)
      simp only [mOf] at hne ⊢
      rw [setF, if_neg hne]
      exact ⟨_, rfl, ih h hw.tail (by simpa [olds, Ent.old] using hL)⟩
    | pair y z =>
      obtain ⟨c, T, T', rfl, rfl, h⟩ := h
      by_cases hxy : x = y
      · subst hxy
        simp only [mOf, if_true, setF]
        exact ⟨_, _, _, rfl, rfl, h⟩
      · have hne : mOf sh x ≠ z := mOf_ne_head hw hx (by simpa [Ent.old] using Ne.symm hxy)
        simp only [mOf, if_neg hxy, setF, if_neg hne]
        exact ⟨_, _, _, rfl, rfl, ih h hw.tail (by simpa [olds, Ent.old, hxy] using hL)⟩

theorem FR.find_junk {sh : Shape} {L L' : Frame} {y : Name} {c : Cell} (h : FR K sh L L')
    (hw : WF Old K sh) (hj : Ent.junk y c ∈ sh) : Inline.find L' y = some c ∧ ¬ Old y := by
  induction sh generalizing L L' with
  | nil => cases hj
  | cons a sh ih =>
    rcases List.mem_cons.1 hj with rfl | hj'
    · obtain ⟨T', rfl, h⟩ := h
      exact ⟨by simp [Inline.find], hw.1⟩
    · cases a with
      | junk r d =>
        obtain ⟨T', rfl, h⟩ := h
        obtain ⟨h₁, h₂⟩ := ih h hw.tail hj'
        refine ⟨?_, h₂⟩
        rw [Inline.find, if_neg]
        · exact h₁
        · rintro rfl
          have := mem_news hj'
          exact (hw.2.1 h₂).1 this
      | pair x z =>
        obtain ⟨d, T, T', rfl, rfl, h⟩ := h
        obtain ⟨h₁, h₂⟩ := ih h hw.tail hj'
        refine ⟨?_, h₂⟩
        rw [Inline.find, if_neg]
        · exact h₁
        · rintro rfl
          have := mem_news hj'
          exact (hw.2.1 h₂).1 this

/-- The outer part of a frame. -/
theorem FR.split {sh₁ sh : Shape} {L L' : Frame} (h : FR K (sh₁ ++ sh) L L') :
    ∃ X X' T T', L = X ++ T ∧ L' = X' ++ T' ∧ FR K sh T T' ∧ names X' = news sh₁ := by
  induction sh₁ generalizing L L' with
  | nil => exact ⟨[], [], L, L', rfl, rfl, h, rfl⟩
  | cons a sh₁ ih =>
    cases a with
    | junk r c =>
      obtain ⟨T', rfl, h⟩ := h
      obtain ⟨X, X', T, T', rfl, rfl, h, hn⟩ := ih h
      exact ⟨X, (r, c) :: X', T, T', rfl, rfl, h, by
        simp only [names, news] at hn ⊢; simp [Ent.new, hn]⟩
    | pair x z =>
      obtain ⟨c, T, T', rfl, rfl, h⟩ := h
      obtain ⟨X, X', T, T', rfl, rfl, h, hn⟩ := ih h
      exact ⟨(x, c) :: X, (z, c) :: X', T, T', rfl, rfl, h, by
        simp only [names, news] at hn ⊢; simp [Ent.new, hn]⟩

theorem FR.length {sh : Shape} {L L' : Frame} (h : FR K sh L L') :
    L.length = (olds sh).length ∧ L'.length = sh.length + K.length := by
  constructor
  · have := congrArg List.length h.names_left; simpa [names] using this
  · have := congrArg List.length h.names_right; simpa [names, news] using this

theorem FR.bot {sh₁ sh : Shape} {L L' L₀ L₀' : Frame} (h : FR K (sh₁ ++ sh) L L')
    (h₀ : FR K sh L₀ L₀') : FR K sh (Inline.bot L₀.length L) (Inline.bot L₀'.length L') := by
  obtain ⟨X, X', T, T', rfl, rfl, hT, _⟩ := h.split
  rw [bot_append_of (hT.length.1.trans h₀.length.1.symm),
    bot_append_of (hT.length.2.trans h₀.length.2.symm)]
  exact hT

/-- Correspondence of states. -/
structure SR (K : Frame) (sh : Shape) (σ σ' : St) : Prop where
  g : σ.g = σ'.g
  l : FR K sh σ.l σ'.l

theorem SR.get {sh : Shape} {σ σ' : St} {x : Name} (h : SR K sh σ σ') (hw : WF Old K sh)
    (hx : Old x) (hK : x ∈ olds sh ∨ x ∉ names K) : Inline.get σ' (mOf sh x) = Inline.get σ x := by
  unfold Inline.get
  rw [h.l.find hw hx hK, ← h.g]
  split
  · rfl
  · rfl
  · rename_i hn
    rw [find_none, h.l.names_left] at hn
    rw [mOf_notin hn]

theorem SR.set {sh : Shape} {σ σ' : St} {x : Name} (v : Val) (h : SR K sh σ σ') (hw : WF Old K sh)
    (hx : Old x) (hK : x ∈ olds sh ∨ x ∉ names K) :
    SR K sh (Inline.set σ x v) (Inline.set σ' (mOf sh x) v) := by
  unfold Inline.set
  rw [h.l.find hw hx hK, ← h.g]
  split
  · rename_i hs
    refine ⟨rfl, h.l.set v hw hx ?_⟩
    rw [← h.l.names_left]
    exact Classical.byContradiction fun hc => by
      rw [find_none.2 hc] at hs; cases hs
  · exact ⟨rfl, h.l⟩
  · rename_i hn
    rw [find_none, h.l.names_left] at hn
    rw [mOf_notin hn]
    exact ⟨rfl, h.l⟩

theorem SR.get_junk {sh : Shape} {σ σ' : St} {y : Name} {v : Val} (h : SR K sh σ σ')
    (hw : WF Old K sh) (hj : Ent.junk y (.auto v) ∈ sh) : Inline.get σ' y = v := by
  unfold Inline.get
  rw [(h.l.find_junk hw hj).1]

end Tsar.Inline
