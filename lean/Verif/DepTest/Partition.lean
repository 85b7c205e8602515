import Verif.DepTest.Depends
import Mathlib.Logic.Relation
/-!
# Partition of subscripts into groups

`lib/Analysis/Memory/DependenceAnalysis.cpp:3725-3766`: subscripts which mention a common loop,
directly or through other subscripts, fall into the same group.
-/

namespace Tsar.DepTest

set_option linter.unusedSectionVars false

variable {L : Type} [DecidableEq L]

theorem meets_iff {a b : List L} : meets a b = true ↔ ∃ x ∈ a, x ∈ b := by
  simp [meets]

theorem mergeInto_spec (i : Nat) (js : List Nat) (hn : js.Nodup) (hi : i ∉ js) :
    ∀ (p : Part L) (done : Bool), ∃ p' b, mergeInto i js p done = (p', b) ∧
      p'.separable = p.separable ∧ p'.coupled = p.coupled ∧
      (∀ k, (k ∉ js ∨ meets (p.loops i) (p.loops k) = false) →
        p'.loops k = p.loops k ∧ p'.group k = p.group k) ∧
      (∀ k ∈ js, meets (p.loops i) (p.loops k) = true →
        p'.loops k = p.loops k ++ p.loops i ∧ p'.group k = p.group k ++ p.group i) ∧
      (b = true ↔ done = true ∧ ∀ k ∈ js, meets (p.loops i) (p.loops k) = false) := by
  induction js with
  | nil => intro p done; exact ⟨p, done, rfl, rfl, rfl, fun _ _ => ⟨rfl, rfl⟩, by simp, by simp⟩
  | cons j js ih =>
    intro p done
    rw [List.nodup_cons] at hn
    simp only [List.mem_cons, not_or] at hi
    simp only [mergeInto]
    split
    · rename_i hm
      obtain ⟨p', b, h1, h2, h3, h4, h5, h6⟩ := ih hn.2 hi.2
        { p with
          loops := fun k => if k = j then p.loops j ++ p.loops i else p.loops k
          group := fun k => if k = j then p.group j ++ p.group i else p.group k } false
      refine ⟨p', b, h1, h2, h3, ?_, ?_, ?_⟩
      · intro k hk
        have hkj : k ≠ j := by
          rintro rfl
          rcases hk with h | h
          · simp at h
          · rw [hm] at h; cases h
        have := h4 k (by
          rcases hk with h | h
          · exact .inl fun h' => h (by simp [h'])
          · refine .inr ?_
            simp only [hi.1, if_false, hkj]; exact h)
        simpa [hkj] using this
      · intro k hk hmk
        rcases List.mem_cons.1 hk with rfl | hk
        · have := h4 k (.inl hn.1)
          simpa using this
        · have hkj : k ≠ j := fun he => hn.1 (he ▸ hk)
          have := h5 k hk (by simp only [hi.1, if_false, hkj]; exact hmk)
          simpa [hkj, hi.1] using this
      · rw [h6]
        constructor
        · intro h; simp at h
        · intro h
          have := h.2 j (by simp)
          rw [hm] at this; cases this
    · rename_i hm
      obtain ⟨p', b, h1, h2, h3, h4, h5, h6⟩ := ih hn.2 hi.2 p done
      refine ⟨p', b, h1, h2, h3, ?_, ?_, ?_⟩
      · intro k hk
        by_cases hkj : k = j
        · subst hkj; exact h4 k (.inl hn.1)
        · exact h4 k (hk.imp (fun h h' => h (by simp [h'])) id)
      · intro k hk hmk
        rcases List.mem_cons.1 hk with rfl | hk
        · exact absurd hmk hm
        · exact h5 k hk hmk
      · rw [h6]
        simp only [List.mem_cons, forall_eq_or_imp]
        simp [hm]

/-- Two of the first `n` subscripts mention a common loop. -/
def Share (pl : Nat → List L) (n a b : Nat) : Prop := a < n ∧ b < n ∧ ∃ x ∈ pl a, x ∈ pl b

/-- Subscripts are connected by a chain of subscripts in which neighbours mention a common loop. -/
def Linked (pl : Nat → List L) (n : Nat) : Nat → Nat → Prop := Relation.EqvGen (Share pl n)

/-- The state of the loop over subscripts before subscript `cur`; `pl` are loops of subscripts. -/
structure PartInv (cls : Nat → Option Class) (pl : Nat → List L) (n cur : Nat) (p : Part L) : Prop where
  loops : ∀ i x, x ∈ p.loops i ↔ ∃ k ∈ p.group i, x ∈ pl k
  self : ∀ i, i ∈ p.group i
  other : ∀ i, ∀ k ∈ p.group i, k ≠ i → k < i ∧ pl k ≠ [] ∧ pl i ≠ []
  lt : ∀ d ∈ p.separable ++ p.coupled, d < cur ∧ d < n ∧ cls d ≠ none
  nodup : (p.separable ++ p.coupled).Nodup
  later : ∀ d ∈ p.separable ++ p.coupled, ∀ j, cur ≤ j → j < n → ∀ x ∈ p.loops d, x ∉ p.loops j
  pairwise : ∀ d ∈ p.separable ++ p.coupled, ∀ d' ∈ p.separable ++ p.coupled, d ≠ d' →
    ∀ x ∈ p.loops d, x ∉ p.loops d'
  cover : ∀ k < n, cls k ≠ none → (∃ d ∈ p.separable ++ p.coupled, k ∈ p.group d) ∨
    ∃ j, cur ≤ j ∧ j < n ∧ k ∈ p.group j
  sep : ∀ d ∈ p.separable, ∀ k ∈ p.group d, k = d
  linked : ∀ i < n, ∀ k ∈ p.group i, Linked pl n k i
  coup : ∀ d ∈ p.coupled, (∃ k ∈ p.group d, k ≠ d) ∧ cls d ≠ some .ZIV

theorem dedup_length_one {i : Nat} {l : List Nat} (hi : i ∈ l) :
    l.dedup.length = 1 ↔ ∀ k ∈ l, k = i := by
  constructor
  · intro h k hk
    obtain ⟨a, ha⟩ := List.length_eq_one_iff.1 h
    have h1 : i ∈ l.dedup := List.mem_dedup.2 hi
    have h2 : k ∈ l.dedup := List.mem_dedup.2 hk
    rw [ha] at h1 h2
    simp only [List.mem_singleton] at h1 h2
    rw [h1, h2]
  · intro h
    have : l.dedup = [i] := by
      have h1 : i ∈ l.dedup := List.mem_dedup.2 hi
      have h2 := List.nodup_dedup l
      have h3 : ∀ k ∈ l.dedup, k = i := fun k hk => h k (List.mem_dedup.1 hk)
      cases hl : l.dedup with
      | nil => rw [hl] at h1; cases h1
      | cons a t =>
        rw [hl] at h2 h3
        have ha : a = i := h3 a (by simp)
        subst ha
        cases t with
        | nil => rfl
        | cons b t =>
          have hb : b = a := h3 b (by simp)
          subst hb
          simp at h2
    rw [this]; rfl

/-- A subscript is added to a set of finished ones. -/
theorem PartInv.finish {cls : Nat → Option Class} {pl : Nat → List L} {n i : Nat} {p : Part L}
    (h : PartInv cls pl n i p) (hin : i < n) (hcls : cls i ≠ none)
    (hd : ∀ j, i < j → j < n → ∀ x ∈ p.loops i, x ∉ p.loops j) (p' : Part L)
    (hl : p'.loops = p.loops) (hg : p'.group = p.group)
    (hm : (p'.separable = p.separable ++ [i] ∧ p'.coupled = p.coupled ∧ ∀ k ∈ p.group i, k = i) ∨
      (p'.separable = p.separable ∧ p'.coupled = p.coupled ++ [i] ∧
        (∃ k ∈ p.group i, k ≠ i) ∧ cls i ≠ some .ZIV)) :
    PartInv cls pl n (i + 1) p' := by
  have hmem : ∀ d, d ∈ p'.separable ++ p'.coupled ↔ d ∈ p.separable ++ p.coupled ∨ d = i := by
    intro d
    rcases hm with ⟨h1, h2, -⟩ | ⟨h1, h2, -⟩ <;> rw [h1, h2] <;>
      simp only [List.mem_append, List.mem_singleton] <;> tauto
  have hni : i ∉ p.separable ++ p.coupled := fun hm => absurd (h.lt i hm).1 (by omega)
  refine ⟨?_, ?_, ?_, ?_, ?_, ?_, ?_, ?_, ?_, ?_, ?_⟩
  · rw [hl, hg]; exact h.loops
  · rw [hg]; exact h.self
  · rw [hg]; exact h.other
  · intro d hd'
    rcases (hmem d).1 hd' with hd' | rfl
    · exact ⟨by have := (h.lt d hd').1; omega, (h.lt d hd').2⟩
    · exact ⟨by omega, hin, hcls⟩
  · have : (p'.separable ++ p'.coupled).Perm (i :: (p.separable ++ p.coupled)) := by
      rcases hm with ⟨h1, h2, -⟩ | ⟨h1, h2, -⟩ <;> rw [h1, h2]
      · rw [List.append_assoc]; exact List.perm_middle
      · rw [← List.append_assoc]; exact List.perm_append_singleton ..
    rw [this.nodup_iff, List.nodup_cons]
    exact ⟨hni, h.nodup⟩
  · intro d hd' j hj hjn x hx
    rw [hl] at hx ⊢
    rcases (hmem d).1 hd' with hd' | rfl
    · exact h.later d hd' j (by omega) hjn x hx
    · exact hd j (by omega) hjn x hx
  · intro d hd1 d' hd2 hne x hx
    rw [hl] at hx ⊢
    rcases (hmem d).1 hd1 with hd1 | rfl
    · rcases (hmem d').1 hd2 with hd2 | rfl
      · exact h.pairwise d hd1 d' hd2 hne x hx
      · exact h.later d hd1 d' (le_refl _) hin x hx
    · rcases (hmem d').1 hd2 with hd2 | rfl
      · intro hx'; exact h.later d' hd2 d (le_refl _) hin x hx' hx
      · exact absurd rfl hne
  · intro k hk hc
    rw [hg]
    rcases h.cover k hk hc with ⟨d, h1, h2⟩ | ⟨j, h1, h2, h3⟩
    · exact .inl ⟨d, (hmem d).2 (.inl h1), h2⟩
    · by_cases hji : j = i
      · subst hji; exact .inl ⟨j, (hmem j).2 (.inr rfl), h3⟩
      · exact .inr ⟨j, by omega, h2, h3⟩
  · intro d hd' k hk
    rw [hg] at hk
    rcases hm with ⟨h1, h2, h3⟩ | ⟨h1, h2, h3⟩
    · rw [h1, List.mem_append, List.mem_singleton] at hd'
      rcases hd' with hd' | rfl
      · exact h.sep d hd' k hk
      · exact h3 k hk
    · rw [h1] at hd'; exact h.sep d hd' k hk
  · rw [hg]; exact h.linked
  · intro d hd'
    rw [hg]
    rcases hm with ⟨h1, h2, h3⟩ | ⟨h1, h2, h3⟩
    · rw [h2] at hd'; exact h.coup d hd'
    · rw [h2, List.mem_append, List.mem_singleton] at hd'
      rcases hd' with hd' | rfl
      · exact h.coup d hd'
      · exact h3

theorem partition_inv {cls : Nat → Option Class} {pl : Nat → List L}
    (h0 : ∀ i, cls i = none → pl i = []) (h1 : ∀ i, cls i = some .ZIV → pl i = []) (m : Nat) :
    ∀ (i : Nat) (p : Part L), PartInv cls pl (i + m) i p →
      PartInv cls pl (i + m) (i + m) (partition cls m i p) := by
  induction m with
  | zero => intro i p h; exact h
  | succ m ih =>
    intro i p h
    have e : i + (m + 1) = i + 1 + m := by omega
    have only : pl i = [] → ∀ k ∈ p.group i, k = i := fun hp k hk => by
      by_contra hne
      exact (h.other i k hk hne).2.2 hp
    have noloops : pl i = [] → ∀ x, x ∉ p.loops i := fun hp x hx => by
      obtain ⟨k, hk, hx⟩ := (h.loops i x).1 hx
      rw [only hp k hk, hp] at hx; cases hx
    rw [e] at h ⊢
    unfold partition
    split
    · rename_i hc
      refine ih (i + 1) p { h with
        lt := fun d hd => ⟨by have := (h.lt d hd).1; omega, (h.lt d hd).2⟩
        later := fun d hd j hj => h.later d hd j (by omega)
        cover := fun k hk hck => ?_ }
      rcases h.cover k hk hck with h | ⟨j, h2, h3, h4⟩
      · exact .inl h
      · refine .inr ⟨j, ?_, h3, h4⟩
        by_contra hji
        have : j = i := by omega
        subst this
        have := only (h0 j hc) k h4
        subst this
        exact hck hc
    · rename_i hc
      refine ih (i + 1) _ (h.finish (by omega) (by rw [hc]; simp)
        (fun j _ _ x hx => absurd hx (noloops (h1 i hc) x)) _ rfl rfl
        (.inl ⟨rfl, rfl, only (h1 i hc)⟩))
    · rename_i cl hcz hc
      simp only
      have hjs : ∀ k, k ∈ (List.range m).map (· + (i + 1)) ↔ i + 1 ≤ k ∧ k < i + 1 + m := by
        intro k
        simp only [List.mem_map, List.mem_range]
        constructor
        · rintro ⟨a, ha, rfl⟩; omega
        · intro hk; exact ⟨k - (i + 1), by omega, by omega⟩
      obtain ⟨p', b, e1, e2, e3, e4, e5, e6⟩ := mergeInto_spec i ((List.range m).map (· + (i + 1)))
        (List.nodup_range.map (fun a b h => by simpa using h))
        (by rw [hjs]; omega) p true
      rw [e1]
      simp only
      have hi' := e4 i (.inl (by rw [hjs]; omega))
      have hle : ∀ k, k ≤ i → p'.loops k = p.loops k ∧ p'.group k = p.group k :=
        fun k hk => e4 k (.inl (by rw [hjs]; omega))
      have hcase : ∀ k, (p'.loops k = p.loops k ∧ p'.group k = p.group k) ∨
          (i < k ∧ k < i + 1 + m ∧ (∃ x ∈ p.loops i, x ∈ p.loops k) ∧
            p'.loops k = p.loops k ++ p.loops i ∧ p'.group k = p.group k ++ p.group i) := by
        intro k
        by_cases hk : k ∈ (List.range m).map (· + (i + 1))
        · cases hm : meets (p.loops i) (p.loops k) with
          | false => exact .inl (e4 k (.inr hm))
          | true =>
            have := (hjs k).1 hk
            exact .inr ⟨by omega, by omega, meets_iff.1 hm, e5 k hk hm⟩
        · exact .inl (e4 k (.inl hk))
      have hne : ∀ j, (∃ x, x ∈ p.loops j) → pl j ≠ [] := by
        rintro j ⟨x, hx⟩ hp
        obtain ⟨k, hk, hx'⟩ := (h.loops j x).1 hx
        by_cases hkj : k = j
        · subst hkj; rw [hp] at hx'; cases hx'
        · exact (h.other j k hk hkj).2.2 hp
      have hbase : PartInv cls pl (i + 1 + m) i p' := by
        have hdone : ∀ d, d ∈ p'.separable ++ p'.coupled → d ∈ p.separable ++ p.coupled := by
          rw [e2, e3]; exact fun d hd => hd
        refine ⟨?_, ?_, ?_, ?_, ?_, ?_, ?_, ?_, ?_, ?_, ?_⟩
        · intro j x
          rcases hcase j with ⟨a, b⟩ | ⟨-, -, -, a, b⟩ <;> rw [a, b]
          · exact h.loops j x
          · simp only [List.mem_append, h.loops]
            constructor
            · rintro (⟨k, h1, h2⟩ | ⟨k, h1, h2⟩)
              · exact ⟨k, .inl h1, h2⟩
              · exact ⟨k, .inr h1, h2⟩
            · rintro ⟨k, h1 | h1, h2⟩
              · exact .inl ⟨k, h1, h2⟩
              · exact .inr ⟨k, h1, h2⟩
        · intro j
          rcases hcase j with ⟨a, b⟩ | ⟨-, -, -, a, b⟩ <;> rw [b]
          · exact h.self j
          · exact List.mem_append_left _ (h.self j)
        · intro j k hk hkj
          rcases hcase j with ⟨a, b⟩ | ⟨hij, -, ⟨x, hx1, hx2⟩, a, b⟩ <;> rw [b] at hk
          · exact h.other j k hk hkj
          · rcases List.mem_append.1 hk with hk | hk
            · exact h.other j k hk hkj
            · by_cases hki : k = i
              · subst hki; exact ⟨hij, hne k ⟨x, hx1⟩, hne j ⟨x, hx2⟩⟩
              · have := h.other i k hk hki
                exact ⟨by omega, this.2.1, hne j ⟨x, hx2⟩⟩
        · intro d hd; exact h.lt d (hdone d hd)
        · rw [e2, e3]; exact h.nodup
        · intro d hd j hj hjn x hx
          have hd := hdone d hd
          rw [(hle d (by have := (h.lt d hd).1; omega)).1] at hx
          rcases hcase j with ⟨a, b⟩ | ⟨hij, -, -, a, b⟩ <;> rw [a]
          · exact h.later d hd j hj hjn x hx
          · rw [List.mem_append, not_or]
            exact ⟨h.later d hd j hj hjn x hx, h.later d hd i (le_refl _) (by omega) x hx⟩
        · intro d hd d' hd' hne x hx
          have hd := hdone d hd
          have hd' := hdone d' hd'
          rw [(hle d (by have := (h.lt d hd).1; omega)).1] at hx
          rw [(hle d' (by have := (h.lt d' hd').1; omega)).1]
          exact h.pairwise d hd d' hd' hne x hx
        · intro k hk hck
          rcases h.cover k hk hck with ⟨d, h2, h3⟩ | ⟨j, h2, h3, h4⟩
          · refine .inl ⟨d, by rw [e2, e3]; exact h2, ?_⟩
            rw [(hle d (by have := (h.lt d h2).1; omega)).2]; exact h3
          · refine .inr ⟨j, h2, h3, ?_⟩
            rcases hcase j with ⟨a, b⟩ | ⟨hij, -, -, a, b⟩ <;> rw [b]
            · exact h4
            · exact List.mem_append_left _ h4
        · intro d hd k hk
          rw [e2] at hd
          rw [(hle d (by have := (h.lt d (by simp [hd])).1; omega)).2] at hk
          exact h.sep d hd k hk
        · intro j hj k hk
          rcases hcase j with ⟨a, b⟩ | ⟨hij, -, ⟨x, hx1, hx2⟩, a, b⟩ <;> rw [b] at hk
          · exact h.linked j hj k hk
          · rcases List.mem_append.1 hk with hk | hk
            · exact h.linked j hj k hk
            · obtain ⟨k1, g1, g2⟩ := (h.loops i x).1 hx1
              obtain ⟨k2, g3, g4⟩ := (h.loops j x).1 hx2
              have hk1 : k1 ≤ i := by
                by_cases he : k1 = i
                · omega
                · have := (h.other i k1 g1 he).1; omega
              have hk2 : k2 ≤ j := by
                by_cases he : k2 = j
                · omega
                · have := (h.other j k2 g3 he).1; omega
              have hin : i < i + 1 + m := by omega
              exact (h.linked i hin k hk).trans _ _ _
                (((h.linked i hin k1 g1).symm _ _).trans _ _ _
                  ((Relation.EqvGen.rel _ _ ⟨by omega, by omega, x, g2, g4⟩).trans _ _ _
                    (h.linked j hj k2 g3)))
        · intro d hd
          rw [e3] at hd
          rw [(hle d (by have := (h.lt d (by simp [hd])).1; omega)).2]
          exact h.coup d hd
      split
      · rename_i hb
        have hb := (e6.1 hb).2
        have hdis : ∀ j, i < j → j < i + 1 + m → ∀ x ∈ p'.loops i, x ∉ p'.loops j := by
          intro j hj hjn x hx hx'
          · have h2 := hb j ((hjs j).2 ⟨by omega, by omega⟩)
            rw [hi'.1] at hx
            rw [(e4 j (.inr h2)).1] at hx'
            rw [meets_iff.2 ⟨x, hx, hx'⟩] at h2; cases h2
        split
        · rename_i hlen
          refine ih (i + 1) _ (hbase.finish (by omega) (by rw [hc]; simp) hdis _ rfl rfl
            (.inl ⟨rfl, rfl, (dedup_length_one (hbase.self i)).1 hlen⟩))
        · rename_i hlen
          refine ih (i + 1) _ (hbase.finish (by omega) (by rw [hc]; simp) hdis _ rfl rfl
            (.inr ⟨rfl, rfl, ?_, by rw [hc]; simpa using fun h => hcz (by rw [h])⟩))
          rw [dedup_length_one (hbase.self i)] at hlen
          push Not at hlen
          exact hlen
      · rename_i hb
        have hex : ∃ j, i < j ∧ j < i + 1 + m ∧ p'.group j = p.group j ++ p.group i := by
          by_contra hno
          apply hb
          rw [e6]
          refine ⟨rfl, fun k hk => ?_⟩
          cases hm : meets (p.loops i) (p.loops k) with
          | false => rfl
          | true =>
            have := (hjs k).1 hk
            exact absurd ⟨k, by omega, by omega, (e5 k hk hm).2⟩ hno
        refine ih (i + 1) p' { hbase with
          lt := fun d hd => ⟨by have := (hbase.lt d hd).1; omega, (hbase.lt d hd).2⟩
          later := fun d hd j hj => hbase.later d hd j (by omega)
          cover := fun k hk hck => ?_ }
        rcases hbase.cover k hk hck with h | ⟨j, h2, h3, h4⟩
        · exact .inl h
        · by_cases hji : j = i
          · subst hji
            obtain ⟨j', a1, a2, a3⟩ := hex
            refine .inr ⟨j', a1, a2, ?_⟩
            rw [hi'.2] at h4
            rw [a3]; exact List.mem_append_right _ h4
          · exact .inr ⟨j, by omega, h3, h4⟩

variable {S Env : Type}

theorem classify_ziv {src dst : Sub S L} :
    classify src dst = .ZIV ↔ src.loops = [] ∧ dst.loops = [] := by
  have h0 : ∀ l : List L, count l = 0 ↔ l = [] := fun l => by
    rw [count, List.length_eq_zero_iff]
    constructor
    · intro h
      rw [List.eq_nil_iff_forall_not_mem] at h ⊢
      exact fun x hx => h x (List.mem_dedup.2 hx)
    · rintro rfl; rfl
  unfold classify
  simp only
  split
  · rename_i h
    rw [h0, List.append_eq_nil_iff] at h
    simp [h]
  · rename_i h
    rw [h0, List.append_eq_nil_iff] at h
    simp only [h, iff_false]
    split
    · simp
    split <;> simp

/-- The partition of subscripts of two accesses. -/
theorem parts_inv (c : Ctx S L Env) (n : Nat) (pairs : Nat → Pair S L) :
    PartInv (fun i => Ctx.pairClass (pairs i)) (fun i => c.pairLoops (pairs i)) n n
      (c.parts n pairs) := by
  have := partition_inv (cls := fun i => Ctx.pairClass (pairs i))
    (pl := fun i => c.pairLoops (pairs i)) (fun i hi => ?_) (fun i hi => ?_) n 0
    ⟨fun i => c.pairLoops (pairs i), fun i => [i], [], []⟩ ?_
  · simpa [Ctx.parts] using this
  · cases hp : pairs i with
    | linear src dst => simp [hp, Ctx.pairClass] at hi
    | nonLinear => rfl
  · cases hp : pairs i with
    | linear src dst =>
      simp only [hp, Ctx.pairClass, Option.some.injEq, classify_ziv] at hi
      simp [Ctx.pairLoops, Ctx.loops, hi]
    | nonLinear => rfl
  · refine ⟨?_, ?_, ?_, ?_, ?_, ?_, ?_, ?_, ?_, ?_, ?_⟩ <;> try simp
    · intro k hk _; simpa using hk
    · intro i _; exact Relation.EqvGen.refl _

/-- The subscript is linear. -/
def Pair.Linear : Pair S L → Prop
  | .linear _ _ => True
  | .nonLinear => False

theorem pairClass_ne_none {x : Pair S L} : Ctx.pairClass x ≠ none ↔ x.Linear := by
  cases x <;> simp [Ctx.pairClass, Pair.Linear]

/-- Every linear subscript belongs to exactly one of the groups which are tested, and non-linear
subscripts belong to none of them. -/
theorem parts_unique (c : Ctx S L Env) (n : Nat) (pairs : Nat → Pair S L) (k : Nat) (hk : k < n)
    (hl : (pairs k).Linear) :
    ∃ d, (d ∈ (c.parts n pairs).separable ++ (c.parts n pairs).coupled ∧
      k ∈ (c.parts n pairs).group d) ∧
      ∀ d', d' ∈ (c.parts n pairs).separable ++ (c.parts n pairs).coupled →
        k ∈ (c.parts n pairs).group d' → d' = d := by
  have h := parts_inv c n pairs
  rcases h.cover k hk (pairClass_ne_none.2 hl) with ⟨d, h1, h2⟩ | ⟨j, h1, h2, -⟩
  · refine ⟨d, ⟨h1, h2⟩, fun d' h1' h2' => ?_⟩
    by_contra hne
    have hpl : c.pairLoops (pairs k) = [] := by
      rw [List.eq_nil_iff_forall_not_mem]
      intro x hx
      exact h.pairwise d h1 d' h1' (Ne.symm hne) x ((h.loops d x).2 ⟨k, h2, hx⟩)
        ((h.loops d' x).2 ⟨k, h2', hx⟩)
    have e1 : k = d := by
      by_contra hkd; exact (h.other d k h2 hkd).2.1 hpl
    have e2 : k = d' := by
      by_contra hkd; exact (h.other d' k h2' hkd).2.1 hpl
    exact hne (e2.symm.trans e1)
  · omega

/-- Groups consist of linear subscripts, a separable group has the only subscript, and a coupled
group has several subscripts each of which mentions a loop. -/
theorem parts_group (c : Ctx S L Env) (n : Nat) (pairs : Nat → Pair S L) (d : Nat) :
    (d ∈ (c.parts n pairs).separable → d < n ∧ (pairs d).Linear ∧
      ∀ k, k ∈ (c.parts n pairs).group d ↔ k = d) ∧
    (d ∈ (c.parts n pairs).coupled → (∃ k ∈ (c.parts n pairs).group d, k ≠ d) ∧
      d ∈ (c.parts n pairs).group d ∧
      ∀ k ∈ (c.parts n pairs).group d, k < n ∧ c.pairLoops (pairs k) ≠ []) := by
  have h := parts_inv c n pairs
  refine ⟨fun hd => ?_, fun hd => ?_⟩
  · have hm : d ∈ (c.parts n pairs).separable ++ (c.parts n pairs).coupled := by simp [hd]
    refine ⟨(h.lt d hm).2.1, pairClass_ne_none.1 (h.lt d hm).2.2, fun k => ⟨h.sep d hd k, ?_⟩⟩
    rintro rfl; exact h.self k
  · have hm : d ∈ (c.parts n pairs).separable ++ (c.parts n pairs).coupled := by simp [hd]
    obtain ⟨⟨k0, hk0, hne0⟩, -⟩ := h.coup d hd
    refine ⟨⟨k0, hk0, hne0⟩, h.self d, fun k hk => ?_⟩
    have := h.lt d hm
    by_cases hkd : k = d
    · subst hkd; exact ⟨this.1, (h.other k k0 hk0 hne0).2.2⟩
    · have := h.other d k hk hkd
      exact ⟨by omega, this.2.1⟩

/-- Two linear subscripts belong to the same group if and only if they are connected by a chain of
subscripts in which neighbours mention a common loop. -/
theorem parts_linked (c : Ctx S L Env) (n : Nat) (pairs : Nat → Pair S L) (a b d d' : Nat)
    (hd : d ∈ (c.parts n pairs).separable ++ (c.parts n pairs).coupled)
    (hd' : d' ∈ (c.parts n pairs).separable ++ (c.parts n pairs).coupled)
    (ha : a ∈ (c.parts n pairs).group d) (hb : b ∈ (c.parts n pairs).group d') :
    d = d' ↔ Linked (fun i => c.pairLoops (pairs i)) n a b := by
  have h := parts_inv c n pairs
  constructor
  · rintro rfl
    have hdn := (h.lt d hd).2.1
    exact (h.linked d hdn a ha).trans _ _ _ ((h.linked d hdn b hb).symm _ _)
  · intro hl
    have uniq : ∀ {k x y}, x ∈ (c.parts n pairs).separable ++ (c.parts n pairs).coupled →
        y ∈ (c.parts n pairs).separable ++ (c.parts n pairs).coupled →
        k ∈ (c.parts n pairs).group x → k ∈ (c.parts n pairs).group y → x = y := by
      intro k x y hx hy hkx hky
      by_contra hne
      have hpl : c.pairLoops (pairs k) = [] := by
        rw [List.eq_nil_iff_forall_not_mem]
        intro z hz
        exact h.pairwise x hx y hy hne z ((h.loops x z).2 ⟨k, hkx, hz⟩)
          ((h.loops y z).2 ⟨k, hky, hz⟩)
      have e1 : k = x := by
        by_contra hkd; exact (h.other x k hkx hkd).2.1 hpl
      have e2 : k = y := by
        by_contra hkd; exact (h.other y k hky hkd).2.1 hpl
      exact hne (e1.symm.trans e2)
    have step : ∀ u v, Share (fun i => c.pairLoops (pairs i)) n u v → ∀ x y,
        x ∈ (c.parts n pairs).separable ++ (c.parts n pairs).coupled →
        y ∈ (c.parts n pairs).separable ++ (c.parts n pairs).coupled →
        u ∈ (c.parts n pairs).group x → v ∈ (c.parts n pairs).group y → x = y := by
      rintro u v ⟨-, -, z, h1, h2⟩ x y hx hy hu hv
      by_contra hne
      exact h.pairwise x hx y hy hne z ((h.loops x z).2 ⟨u, hu, h1⟩) ((h.loops y z).2 ⟨v, hv, h2⟩)
    have lin : ∀ u z, z ∈ c.pairLoops (pairs u) → (pairs u).Linear := by
      intro u z hz
      cases hp : pairs u with
      | linear => trivial
      | nonLinear => rw [hp] at hz; cases hz
    have all : ∀ u v, Linked (fun i => c.pairLoops (pairs i)) n u v → u = v ∨
        ∃ x, x ∈ (c.parts n pairs).separable ++ (c.parts n pairs).coupled ∧
          u ∈ (c.parts n pairs).group x ∧ v ∈ (c.parts n pairs).group x := by
      intro u v huv
      induction huv with
      | rel u v hs =>
        obtain ⟨h1, h2, z, h3, h4⟩ := hs
        obtain ⟨x, ⟨hx, hu⟩, -⟩ := parts_unique c n pairs u h1 (lin u z h3)
        obtain ⟨y, ⟨hy, hv⟩, -⟩ := parts_unique c n pairs v h2 (lin v z h4)
        have := step u v ⟨h1, h2, z, h3, h4⟩ x y hx hy hu hv
        subst this
        exact .inr ⟨x, hx, hu, hv⟩
      | refl u => exact .inl rfl
      | symm u v _ ih =>
        rcases ih with rfl | ⟨x, hx, hu, hv⟩
        · exact .inl rfl
        · exact .inr ⟨x, hx, hv, hu⟩
      | trans u v w _ _ ih1 ih2 =>
        rcases ih1 with rfl | ⟨x, hx, hu, hv⟩
        · exact ih2
        · rcases ih2 with rfl | ⟨y, hy, hv', hw⟩
          · exact .inr ⟨x, hx, hu, hv⟩
          · have := uniq hx hy hv hv'
            subst this
            exact .inr ⟨x, hx, hu, hw⟩
    rcases all a b hl with rfl | ⟨x, hx, h1, h2⟩
    · exact uniq hd hd' ha hb
    · rw [uniq hd hx ha h1, uniq hd' hx hb h2]

end Tsar.DepTest
