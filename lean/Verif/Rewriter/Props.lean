import Verif.Rewriter.Lemmas
import Mathlib.Data.List.Induction

/-!
# Properties of a rewriter
-/

namespace Tsar.Rewriter

theorem allAllowed_append {n : Nat} {reps : List (Nat × Nat)} {os os' : List Op}
    (h : AllAllowed n reps (os ++ os')) : AllAllowed n reps os := by
  induction os generalizing reps with
  | nil => trivial
  | cons o os ih => exact ⟨h.1, ih h.2⟩

/-- C95. Each sequence of requests which do not touch the inside of ranges which
have been replaced already is executed without errors. The buffer and the text
of each range of the initial text are as the specification requires: each
initial character is preceded by text inserted before it and is kept unless it is
replaced, text inserted at the same location is ordered in the same way as
requests are ordered. What is missing: requests inside of replaced ranges, see
`inner_fails`, `single_fails`, `empty_fails`. -/
theorem rewrite_partial (t : List Char) (os : List Op) (h : AllAllowed t.length [] os) :
    ∃ r d, run (init t) os = some r ∧ Steps (doc t) os d ∧
      (∀ d', Steps (doc t) os d' → d' = d) ∧ r.buf = render d ∧
      ∀ l p m x, d = l ++ (p :: m) ++ x →
        getRewrittenText r (size l) (size (p :: m)) = some (p.mid ++ p.body ++ render m) := by
  obtain ⟨d, hd⟩ := allowed_steps (cuts_doc t) h
  obtain ⟨r, e, i, -⟩ := steps_ok (inv_init t) hd
  refine ⟨r, d, e, hd, fun d' h' => steps_det (inv_init t) h' hd, i.buf, ?_⟩
  rintro l p m x rfl
  exact get_ok i

/-- C95. The first replacement changes the specified range only. -/
theorem replace_first (t : List Char) (b len : Nat) (s : List Char) (h0 : 0 < len)
    (h : b + len ≤ t.length) :
    (run (init t) [.replace b len s]).map Rw.buf =
      some (t.take b ++ s ++ t.drop (b + len)) := by
  have e1 : (init t).map[2 * b]? = some (b : Int) := by
    simp only [init, List.getElem?_map]
    rw [List.getElem?_range (by omega)]; simp
  have e2 : (init t).map[2 * (b + len - 1) + 1]? = some ((b + len - 1 : Nat) : Int) := by
    simp only [init, List.getElem?_map]
    rw [List.getElem?_range (by omega)]; simp; omega
  have e3 := bufReplace_mid (t.take b) ((t.drop b).take len) (t.drop (b + len)) s
  have e4 : t.take b ++ (t.drop b).take len ++ t.drop (b + len) = t := by
    rw [List.append_assoc, ← List.drop_drop, List.take_append_drop, List.take_append_drop]
  have e5 : ((t.take b).length : Int) = b := by simp; omega
  have e6 : (((t.drop b).take len).length : Int) = ((b + len - 1 : Nat) : Int) + 1 - b := by
    simp; omega
  rw [e4, e5, e6] at e3
  simp only [run, apply, replaceText, if_neg (show ¬ (b + len = 0) by omega), e1, e2]
  rw [show (init t).buf = t from rfl, e3]
  rfl

/-- C95. The first insertion adds text at the specified location only. -/
theorem insert_first (t : List Char) (b : Nat) (s : List Char) (a : Bool) (h : b < t.length) :
    (run (init t) [.insert b s a]).map Rw.buf = some (t.take b ++ s ++ t.drop b) := by
  have e1 : (init t).map[if a = true then 2 * b + 1 else 2 * b]? = some (b : Int) := by
    simp only [init, List.getElem?_map]
    cases a
    · rw [List.getElem?_range (by simp; omega)]; simp
    · rw [List.getElem?_range (by simp; omega)]; simp; omega
  have e3 := bufReplace_mid (t.take b) [] (t.drop b) s
  have e5 : ((t.take b).length : Int) = b := by simp; omega
  rw [List.append_nil, List.take_append_drop, e5] at e3
  simp only [run, apply, insertText, e1]
  rw [show (init t).buf = t from rfl, show (0 : Int) = (([] : List Char).length : Int) from rfl, e3]
  rfl

/-- C95. The order in which disjoint ranges are replaced does not matter. -/
theorem replace_comm (t : List Char) (os : List Op) (b₁ l₁ : Nat) (s₁ : List Char)
    (b₂ l₂ : Nat) (s₂ : List Char)
    (h : AllAllowed t.length [] (os ++ [.replace b₁ l₁ s₁, .replace b₂ l₂ s₂]))
    (hd : b₁ + l₁ ≤ b₂) :
    ∃ r r', run (init t) (os ++ [.replace b₁ l₁ s₁, .replace b₂ l₂ s₂]) = some r ∧
      run (init t) (os ++ [.replace b₂ l₂ s₂, .replace b₁ l₁ s₁]) = some r' ∧
      r.buf = r'.buf := by
  have cut : ∀ (os : List Op) (reps : List (Nat × Nat)) (d : List Piece),
      Cuts t.length reps d →
      AllAllowed t.length reps (os ++ [.replace b₁ l₁ s₁, .replace b₂ l₂ s₂]) →
      ∃ reps' d', Steps d os d' ∧ Cuts t.length reps' d' ∧
        Allowed t.length reps' (.replace b₁ l₁ s₁) ∧
        Allowed t.length reps' (.replace b₂ l₂ s₂) := by
    intro os
    induction os with
    | nil =>
      intro reps d hc ha
      refine ⟨reps, d, .nil, hc, ha.1, ?_⟩
      obtain ⟨h1, h2, h3⟩ := ha.2.1
      exact ⟨h1, h2, fun q hq => h3 q (List.mem_cons_of_mem _ hq)⟩
    | cons o os ih =>
      intro reps d hc ha
      obtain ⟨d1, hs, hc1⟩ := allowed_step hc ha.1
      obtain ⟨reps', d', k1, k2⟩ := ih _ _ hc1 ha.2
      exact ⟨reps', d', .cons hs k1, k2⟩
  obtain ⟨reps, d, hs, hc, a1, a2⟩ := cut os [] _ (cuts_doc t) h
  obtain ⟨h0, hn, hq⟩ := a1
  obtain ⟨h0', hn', hq'⟩ := a2
  obtain ⟨A, x, e, sA⟩ := hc.cut b₁ (by omega) (fun q h => by have := hq q h; omega)
  obtain ⟨y, z, e2, sy⟩ := hc.cut (b₁ + l₁) (by omega) (fun q h => by have := hq q h; omega)
  obtain ⟨u, v, e3, su⟩ := hc.cut b₂ (by omega) (fun q h => by have := hq' q h; omega)
  obtain ⟨w, C, e4, sw⟩ := hc.cut (b₂ + l₂) (by omega) (fun q h => by have := hq' q h; omega)
  obtain ⟨m, rfl, rfl⟩ := split_le (by rw [← e]; exact hc.pos) (e ▸ e2) (by omega)
  obtain ⟨B, rfl, rfl⟩ := split_le (by rw [← e2]; exact hc.pos) (e2 ▸ e3) (by omega)
  obtain ⟨k, rfl, rfl⟩ := split_le (by rw [← e3]; exact hc.pos) (e3 ▸ e4) (by omega)
  cases m with
  | nil => simp at sy; omega
  | cons p m =>
  cases k with
  | nil => simp at sw su; omega
  | cons q k =>
  subst e4
  simp only [size_append] at sA sy su sw
  obtain rfl : size (p :: m) = l₁ := by omega
  obtain rfl : size (q :: k) = l₂ := by omega
  subst sA
  obtain rfl : size A + size (p :: m) + size B = b₂ := by omega
  set P : Piece := ⟨size (p :: m), p.pre, [], s₁, false⟩ with hP
  set Q : Piece := ⟨size (q :: k), q.pre, [], s₂, false⟩ with hQ
  have t1 : Step (A ++ (p :: m) ++ B ++ (q :: k) ++ C) (.replace (size A) (size (p :: m)) s₁)
      (A ++ P :: (B ++ (q :: k) ++ C)) := by
    have := Step.replace (l := A) (p := p) (m := m) (r := B ++ (q :: k) ++ C) (s := s₁)
    simpa [hP] using this
  have t2 : Step (A ++ P :: (B ++ (q :: k) ++ C))
      (.replace (size A + size (p :: m) + size B) (size (q :: k)) s₂)
      (A ++ P :: (B ++ Q :: C)) := by
    have := Step.replace (l := A ++ P :: B) (p := q) (m := k) (r := C) (s := s₂)
    simpa [hP, hQ, Nat.add_assoc] using this
  have t1' : Step (A ++ (p :: m) ++ B ++ (q :: k) ++ C)
      (.replace (size A + size (p :: m) + size B) (size (q :: k)) s₂)
      (A ++ (p :: m) ++ B ++ Q :: C) := by
    have := Step.replace (l := A ++ (p :: m) ++ B) (p := q) (m := k) (r := C) (s := s₂)
    simpa [hQ, Nat.add_assoc] using this
  have t2' : Step (A ++ (p :: m) ++ B ++ Q :: C) (.replace (size A) (size (p :: m)) s₁)
      (A ++ P :: (B ++ Q :: C)) := by
    have := Step.replace (l := A) (p := p) (m := m) (r := B ++ Q :: C) (s := s₁)
    simpa [hP] using this
  have app : ∀ {d d' d'' : List Piece} {xs ys : List Op}, Steps d xs d' → Steps d' ys d'' →
      Steps d (xs ++ ys) d'' := by
    intro d d' d'' xs ys h1 h2
    induction h1 with
    | nil => exact h2
    | cons h _ ih => exact .cons h (ih h2)
  obtain ⟨r, er, ir, -⟩ := steps_ok (inv_init t) (app hs (.cons t1 (.cons t2 .nil)))
  obtain ⟨r', er', ir', -⟩ := steps_ok (inv_init t) (app hs (.cons t1' (.cons t2' .nil)))
  exact ⟨r, r', er, er', by rw [ir.buf, ir'.buf]⟩

/-! ### Removal of a range together with an empty line -/

theorem lineEnd_some {cs : List Char} {n k : Nat} (h : lineEnd cs n = some k) :
    ∃ u v, cs = u ++ '\n' :: v ∧ k = n + u.length ∧
      ∀ c ∈ u, isHorizontal c = true ∨ c = '\r' := by
  induction cs generalizing n with
  | nil => simp [lineEnd] at h
  | cons c cs ih =>
    simp only [lineEnd] at h
    split at h
    · rename_i hc
      obtain ⟨u, v, e, hk, hu⟩ := ih h
      refine ⟨c :: u, v, by simp [e], by simp; omega, ?_⟩
      intro x hx
      rcases List.mem_cons.1 hx with rfl | hx
      · simpa using hc
      · exact hu x hx
    · split at h
      · rename_i hc
        simp only [Option.some.injEq] at h
        exact ⟨[], cs, by simp [hc], by simp [h], by simp⟩
      · simp at h

theorem lineEnd_of {u v : List Char} {n : Nat}
    (hu : ∀ c ∈ u, isHorizontal c = true ∨ c = '\r') :
    lineEnd (u ++ '\n' :: v) n = some (n + u.length) := by
  induction u generalizing n with
  | nil => simp [lineEnd, isHorizontal]
  | cons c u ih =>
    have hc := hu c (by simp)
    have : (isHorizontal c || decide (c = '\r')) = true := by simpa using hc
    simp only [List.cons_append, lineEnd, this, if_true, List.length_cons]
    rw [ih fun x hx => hu x (by simp [hx])]
    congr 1; omega

/-- The beginning of a line is found. -/
theorem lineStart_of {x y z : List Char} (hy : '\n' ∉ y)
    (hx : x = [] ∨ ∃ x', x = x' ++ ['\n']) :
    lineStart (x ++ y ++ z) (x ++ y).length = x.length := by
  have e : ((x ++ y ++ z).take (x ++ y).length).reverse.takeWhile (· ≠ '\n') = y.reverse := by
    rw [List.take_left' rfl, List.reverse_append]
    have hy' : ∀ c ∈ y.reverse, (decide (c ≠ '\n')) = true := by
      intro c hc
      simp only [decide_eq_true_eq]
      rintro rfl
      exact hy (List.mem_reverse.1 hc)
    rw [List.takeWhile_append_of_pos hy']
    rcases hx with rfl | ⟨x', rfl⟩ <;> simp
  unfold lineStart
  rw [e]
  simp

/-- C95. If there is nothing else on a line but a removed range and whitespaces
then the whole line is removed together with its end. -/
theorem remove_line (x y m u v : List Char) (hx : x = [] ∨ ∃ x', x = x' ++ ['\n'])
    (hy : '\n' ∉ y) (hw : ∀ c ∈ y, isWhitespace c = true)
    (hu : ∀ c ∈ u, isHorizontal c = true ∨ c = '\r') :
    removeRange (x ++ y ++ (m ++ (u ++ '\n' :: v))) (x ++ y).length m.length true =
      (x.length, (y ++ m ++ u ++ ['\n']).length) := by
  unfold removeRange
  simp only [if_true]
  rw [lineStart_of hy hx]
  have e1 : ((x ++ y ++ (m ++ (u ++ '\n' :: v))).take (x ++ y).length).drop x.length = y := by
    rw [List.take_left' rfl, List.drop_left' rfl]
  have e2 : (x ++ y ++ (m ++ (u ++ '\n' :: v))).drop ((x ++ y).length + m.length) =
      u ++ '\n' :: v := by
    rw [← List.drop_drop, List.drop_left' rfl, List.drop_left' rfl]
  rw [e1, e2, lineEnd_of hu, if_pos (by simpa using hw)]
  simp
  omega

/-- C95. Only whitespaces are removed in addition to a specified range, and if
something is removed then it is whole lines. -/
theorem remove_only (x m z : List Char) (a : Bool) :
    removeRange (x ++ m ++ z) x.length m.length a = (x.length, m.length) ∨
    ∃ x' y u v, x = x' ++ y ∧ z = u ++ '\n' :: v ∧ (x' = [] ∨ ∃ w, x' = w ++ ['\n']) ∧
      (∀ c ∈ y, isWhitespace c = true) ∧ (∀ c ∈ u, isWhitespace c = true) ∧ a = true ∧
      removeRange (x ++ m ++ z) x.length m.length a =
        (x'.length, (y ++ m ++ u ++ ['\n']).length) := by
  cases a with
  | false => left; rfl
  | true =>
    have hsplit : ∃ x' y, x = x' ++ y ∧ '\n' ∉ y ∧ (x' = [] ∨ ∃ w, x' = w ++ ['\n']) := by
      induction x using List.reverseRecOn with
      | nil => exact ⟨[], [], rfl, by simp, .inl rfl⟩
      | append_singleton w c ih =>
        by_cases hc : c = '\n'
        · exact ⟨w ++ [c], [], by simp, by simp, .inr ⟨w, by rw [hc]⟩⟩
        · obtain ⟨x', y, rfl, h1, h2⟩ := ih
          exact ⟨x', y ++ [c], by simp, by simp [h1, Ne.symm hc], h2⟩
    obtain ⟨x', y, rfl, hy, hx⟩ := hsplit
    by_cases hw : ∀ c ∈ y, isWhitespace c = true
    · cases hl : lineEnd z 0 with
      | none =>
        left
        unfold removeRange
        have e2 : (x' ++ y ++ m ++ z).drop ((x' ++ y).length + m.length) = z := by
          rw [← List.length_append, List.drop_left' rfl]
        simp only [e2, hl, if_true]
        split <;> rfl
      | some k =>
        right
        obtain ⟨u, v, rfl, -, hu⟩ := lineEnd_some hl
        refine ⟨x', y, u, v, rfl, rfl, hx, hw, ?_, rfl, ?_⟩
        · intro c hc
          rcases hu c hc with h | rfl
          · simp only [isHorizontal, isWhitespace, Bool.or_eq_true] at h ⊢; tauto
          · decide
        · have := remove_line x' y m u v hx hy hw hu
          rwa [List.append_assoc (x' ++ y) m] 
    · left
      unfold removeRange
      have e1 : ((x' ++ y ++ m ++ z).take (x' ++ y).length).drop
          (lineStart (x' ++ y ++ m ++ z) (x' ++ y).length) = y := by
        rw [List.append_assoc (x' ++ y) m, lineStart_of hy hx, List.take_left' rfl,
          List.drop_left' rfl]
      simp only [if_true, e1]
      rw [if_neg (by simpa using hw)]

end Tsar.Rewriter
