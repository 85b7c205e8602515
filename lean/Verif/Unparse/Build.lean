import Verif.Unparse.Examples
/-!
# Construction of debug locations

`buildDIExpression` (lib/Analysis/Memory/DIEstimateMemory.cpp:1510-1557), `buildDIMemory` (lines 2178-2227),
comparison of locations (include/tsar/Analysis/Memory/DIMemoryLocation.h:155-188).
-/
namespace Tsar.Unparse

/-- A pointer in IR. `findMetadata` (it is modelled by the last three constructors) returns a variable which is
placed in the memory the pointer refers to, a variable the pointer is a value of or nothing. An expression of the
variable is empty or it is a fragment (`DIMemoryLocation::get`, DIMemoryLocation.cpp:117-135). `vgep` is a `getelementptr`
with an offset which is not a constant (any step of `getUnderlyingObject`). -/
inductive Ptr
  | gep (p : Ptr) (off : Int)
  | vgep (p : Ptr) (off : Int)
  | load (p : Ptr)
  | addrOf (x : Name) (frag : Option (Nat × Nat))
  | valueOf (x : Name) (frag : Option (Nat × Nat))
  | unnamed (a : Int)

/-- Codes of DWARF operations. -/
def opDeref : Nat := 0x06
def opConstu : Nat := 0x10
def opMinus : Nat := 0x1c
def opPlus : Nat := 0x22
def opPlusU : Nat := 0x23
def opFragment : Nat := 0x1000

/-- Elements of an expression of a variable. -/
def fragWords : Option (Nat × Nat) → List Nat
  | none => []
  | some (o, n) => [opFragment, o, n]

/-- DIEstimateMemory.cpp:1532-1541. -/
def pushOffset (expr : List Nat) (off : Int) : List Nat :=
  let expr := if 0 < off then expr ++ [off.toNat, opPlusU]
    else if off < 0 then expr ++ [opMinus, (-off).toNat, opConstu] else expr
  if off ≠ 0 then expr.modify (expr.length - 2) (· * 8) else expr

/-- `buildDIExpression`, DIEstimateMemory.cpp:1510-1557. `off` is `Offset`. -/
def buildExpr : Ptr → Int → List Nat → Bool → Option (Name × List Nat × Bool)
  | .gep p o, off, expr, tmpl => buildExpr p (off + o) expr tmpl
  | .vgep p _, off, expr, _ => buildExpr p off expr true
  | .load p, off, expr, tmpl => buildExpr p 0 (pushOffset expr off ++ [opDeref]) tmpl
  | .addrOf x f, off, expr, tmpl => some (x, pushOffset expr off ++ fragWords f, tmpl)
  | .valueOf x f, off, expr, tmpl => some (x, pushOffset expr off ++ [opDeref] ++ fragWords f, tmpl)
  | .unnamed _, _, _, _ => none

/-- The loop in DIEstimateMemory.cpp:2204-2209. -/
def lastOp : List Nat → Nat → Nat
  | [], l => l
  | [w], _ => w
  | w :: v :: r, _ => if w ≠ opDeref then lastOp r w else lastOp (v :: r) w

/-- Operations of an expression: iterators of `DIExpression`. -/
def decode : List Nat → Option (List Op)
  | [] => some []
  | w :: r =>
    if w = opDeref then (decode r).map (.deref :: ·)
    else if w = opPlus then (decode r).map (.plus :: ·)
    else if w = opMinus then (decode r).map (.minus :: ·)
    else
      match r with
      | [] => none
      | k :: r =>
        if w = opPlusU then (decode r).map (.plusU k :: ·)
        else if w = opConstu then (decode r).map (.constu k :: ·)
        else
          match r with
          | [] => none
          | n :: r => if w = opFragment then (decode r).map (.fragment k n :: ·) else none

/-- `buildDIMemory`, DIEstimateMemory.cpp:2178-2227. `size` is a size of a location if it is known, `getSize` is
a size of the variable. The result is a variable, elements of an expression, `Template`. -/
def buildMem (p : Ptr) (size : Option Nat) (getSize : Name → Option Nat) : Option (Name × List Nat × Bool) :=
  match buildExpr p 0 [] false with
  | none => none
  | some (x, rev, tmpl) =>
    let expr := rev.reverse
    if expr = [] ∧ getSize x = size then some (x, expr, tmpl)
    else
      let l := lastOp expr 0
      let expr :=
        match size with
        | some n =>
          if expr = [] ∨ l = opDeref ∨ l = opMinus ∨ l = opPlus then expr ++ [opFragment, 0, n * 8]
          else expr.set (expr.length - 2) opFragment ++ [n * 8]
        | none =>
          if expr ≠ [] ∧ l = opFragment then expr.set (expr.length - 1) 0 else expr ++ [opFragment, 0, 0]
      some (x, expr, tmpl)

/-! ## Specification -/

/-- An address which is a value of the pointer. A pointer which is a value of a variable is stored in
memory of this variable. -/
def Ptr.addr (w : World) : Ptr → Int
  | .gep p o => p.addr w + o
  | .vgep p o => p.addr w + o
  | .load p => w.load (p.addr w)
  | .addrOf x _ => w.base x
  | .valueOf x _ => w.load (w.base x)
  | .unnamed a => a

/-- Offsets which are not constants are zero. -/
def Ptr.origin : Ptr → Ptr
  | .gep p o => .gep p.origin o
  | .vgep p _ => .vgep p.origin 0
  | .load p => .load p.origin
  | p => p

/-- All offsets are constants. -/
def Ptr.exact : Ptr → Prop
  | .gep p _ => p.exact
  | .vgep _ _ => False
  | .load p => p.exact
  | _ => True

/-- Metadata is attached to the whole variable. -/
def Ptr.whole : Ptr → Prop
  | .gep p _ => p.whole
  | .vgep p _ => p.whole
  | .load p => p.whole
  | .addrOf _ f => f = none
  | .valueOf _ f => f = none
  | .unnamed _ => True

/-! ## Proofs -/

theorem origin_addr (w : World) (p : Ptr) (h : p.exact) : p.origin.addr w = p.addr w := by
  induction p with
  | gep p o ih => simp [Ptr.origin, Ptr.addr, ih h]
  | vgep => exact h.elim
  | load p ih => simp [Ptr.origin, Ptr.addr, ih h]
  | _ => rfl

theorem buildExpr_tmpl {p : Ptr} {off : Int} {e : List Nat} {b : Bool} {x e'} (h : buildExpr p off e b = some (x, e', false)) :
    b = false ∧ p.exact := by
  induction p generalizing off e b with
  | gep p o ih => exact ih h
  | vgep p o ih => have := (ih h).1; cases this
  | load p ih => exact ih h
  | addrOf y f => simp only [buildExpr, Option.some.injEq, Prod.mk.injEq] at h; exact ⟨h.2.2, trivial⟩
  | valueOf y f => simp only [buildExpr, Option.some.injEq, Prod.mk.injEq] at h; exact ⟨h.2.2, trivial⟩
  | unnamed => cases h

/-- Words of an offset. -/
def offWords (off : Int) : List Nat :=
  if 0 < off then [opPlusU, off.toNat * 8] else if off < 0 then [opConstu, (-off).toNat * 8, opMinus] else []

theorem modify_append (f : Nat → Nat) (a b : List Nat) (k : Nat) :
    (a ++ b).modify (a.length + k) f = a ++ b.modify k f := by
  induction a with
  | nil => simp
  | cons h a ih =>
    rw [List.length_cons, Nat.add_right_comm, List.cons_append, List.modify_succ_cons, ih, List.cons_append]

theorem set_append (v : Nat) (a b : List Nat) (k : Nat) :
    (a ++ b).set (a.length + k) v = a ++ b.set k v := by
  induction a with
  | nil => simp
  | cons h a ih =>
    rw [List.length_cons, Nat.add_right_comm, List.cons_append, List.set_cons_succ, ih, List.cons_append]

theorem pushOffset_eq (expr : List Nat) (off : Int) : pushOffset expr off = expr ++ (offWords off).reverse := by
  unfold pushOffset offWords
  rcases Int.lt_trichotomy off 0 with h | h | h
  · have h1 : ¬ 0 < off := by omega
    have h2 : off ≠ 0 := by omega
    simp only [h1, if_false, h, if_true, h2, ne_eq, not_false_eq_true]
    have h3 : (expr ++ [opMinus, (-off).toNat, opConstu]).length - 2 = expr.length + 1 := by simp
    rw [h3, modify_append]
    rfl
  · subst h; simp
  · have h1 : off ≠ 0 := by omega
    simp only [h, if_true, h1, ne_eq, not_false_eq_true]
    have h3 : (expr ++ [off.toNat, opPlusU]).length - 2 = expr.length := by simp
    rw [h3]
    have := modify_append (· * 8) expr [off.toNat, opPlusU] 0
    rw [Nat.add_zero] at this
    rw [this]
    rfl

/-- Offsets before dereferences and the last offset. -/
def chain : Ptr → Int → List Int × Int
  | .gep p o, off => chain p (off + o)
  | .vgep p _, off => chain p off
  | .load p, off => ((chain p 0).1 ++ [(chain p 0).2], off)
  | .addrOf _ _, off => ([], off)
  | .valueOf _ _, off => ([0], off)
  | .unnamed _, off => ([], off)

/-- Words for offsets which are followed by dereferences. -/
def blk (os : List Int) : List Nat := os.flatMap fun o => offWords o ++ [opDeref]

theorem buildExpr_words {p : Ptr} {off : Int} {e e' : List Nat} {b t : Bool} {x : Name} (hw : p.whole)
    (h : buildExpr p off e b = some (x, e', t)) :
    e'.reverse = blk (chain p off).1 ++ offWords (chain p off).2 ++ e.reverse ∧
      ∀ w : World, p.origin.addr w + off =
        (chain p off).1.foldl (fun a o => w.load (a + o)) (w.base x) + (chain p off).2 := by
  induction p generalizing off e b with
  | gep p o ih =>
    obtain ⟨h1, h2⟩ := ih hw h
    refine ⟨h1, fun w => ?_⟩
    have := h2 w
    simp only [chain, Ptr.origin, Ptr.addr]
    omega
  | vgep p o ih =>
    obtain ⟨h1, h2⟩ := ih hw h
    refine ⟨h1, fun w => ?_⟩
    have := h2 w
    simp only [chain, Ptr.origin, Ptr.addr]
    omega
  | load p ih =>
    obtain ⟨h1, h2⟩ := ih hw h
    refine ⟨?_, fun w => ?_⟩
    · rw [h1, pushOffset_eq]
      simp [chain, blk]
    · have := h2 w
      simp only [chain, Ptr.origin, Ptr.addr, List.foldl_append, List.foldl_cons, List.foldl_nil]
      rw [Int.add_zero] at this
      rw [this]
  | addrOf y f =>
    simp only [Ptr.whole] at hw
    subst hw
    simp only [buildExpr, Option.some.injEq, Prod.mk.injEq] at h
    obtain ⟨rfl, rfl, rfl⟩ := h
    exact ⟨by simp [pushOffset_eq, fragWords, chain, blk], fun w => rfl⟩
  | valueOf y f =>
    simp only [Ptr.whole] at hw
    subst hw
    simp only [buildExpr, Option.some.injEq, Prod.mk.injEq] at h
    obtain ⟨rfl, rfl, rfl⟩ := h
    refine ⟨?_, fun w => ?_⟩
    · have : offWords 0 = [] := rfl
      simp [pushOffset_eq, fragWords, chain, blk, this]
    simp [chain, Ptr.origin, Ptr.addr]
  | unnamed => cases h

/-- Operations of an offset. -/
def offOps (off : Int) : List Op :=
  if 0 < off then [.plusU (off.toNat * 8)] else if off < 0 then [.constu ((-off).toNat * 8), .minus] else []

theorem decode_deref (r : List Nat) : decode (opDeref :: r) = (decode r).map (.deref :: ·) := by
  rw [decode.eq_def]; simp

theorem decode_minus (r : List Nat) : decode (opMinus :: r) = (decode r).map (.minus :: ·) := by
  rw [decode.eq_def]; simp [opDeref, opPlus, opMinus]

theorem decode_plusU (k : Nat) (r : List Nat) : decode (opPlusU :: k :: r) = (decode r).map (.plusU k :: ·) := by
  rw [decode.eq_def]; simp [opDeref, opPlus, opMinus, opPlusU]

theorem decode_constu (k : Nat) (r : List Nat) : decode (opConstu :: k :: r) = (decode r).map (.constu k :: ·) := by
  rw [decode.eq_def]; simp [opDeref, opPlus, opMinus, opPlusU, opConstu]

theorem decode_fragment (k n : Nat) : decode [opFragment, k, n] = some [.fragment k n] := by
  have : decode [] = some [] := by rw [decode.eq_def]
  rw [decode.eq_def]; simp [opDeref, opPlus, opMinus, opPlusU, opConstu, opFragment, this]

theorem decode_off (off : Int) (r : List Nat) : decode (offWords off ++ r) = (decode r).map (offOps off ++ ·) := by
  unfold offWords offOps
  split
  · simp [decode_plusU]
  · split
    · simp [decode_constu, decode_minus, Option.map_map]
      congr 1
    · simp

theorem decode_blk (os : List Int) (r : List Nat) :
    decode (blk os ++ r) = (decode r).map ((os.flatMap fun o => offOps o ++ [.deref]) ++ ·) := by
  induction os with
  | nil => simp [blk]
  | cons o os ih =>
    have : blk (o :: os) ++ r = offWords o ++ (opDeref :: (blk os ++ r)) := by simp [blk]
    rw [this, decode_off]
    rw [decode_deref, ih]
    simp only [Option.map_map]
    congr 1
    funext q
    simp

theorem dwarf_off (load : Int → Int) (off a : Int) (r : List Op) :
    dwarf load (offOps off ++ r) a none = dwarf load r (a + off * 8) none := by
  unfold offOps
  rcases Int.lt_trichotomy off 0 with h | h | h
  · have h1 : ¬ 0 < off := by omega
    simp only [h1, if_false, h, if_true, List.cons_append, List.nil_append, dwarf]
    congr 1; omega
  · subst h; simp
  · simp only [h, if_true, List.cons_append, List.nil_append, dwarf]
    congr 1; omega

theorem dwarf_blk (load : Int → Int) (os : List Int) (a : Int) (r : List Op) :
    dwarf load ((os.flatMap fun o => offOps o ++ [.deref]) ++ r) (a * 8) none =
      dwarf load r (os.foldl (fun a o => load (a + o)) a * 8) none := by
  induction os generalizing a with
  | nil => rfl
  | cons o os ih =>
    simp only [List.flatMap_cons, List.append_assoc, List.foldl_cons, dwarf_off, List.cons_append, List.nil_append]
    have h1 : (a * 8 + o * 8) % 8 = 0 := by omega
    have h2 : (a * 8 + o * 8) / 8 = a + o := by omega
    simp only [dwarf, h1, h2, if_true]
    exact ih _

theorem aligned_off (off : Int) : ∀ o ∈ offOps off, aligned o := by
  unfold offOps
  split
  · simp [aligned]
  · split <;> simp [aligned]

theorem lastOp_blk (os : List Int) (r : List Nat) (hr : r ≠ []) (l : Nat) :
    ∃ l', lastOp (blk os ++ r) l = lastOp r l' := by
  induction os generalizing l with
  | nil => exact ⟨l, rfl⟩
  | cons o os ih =>
    have h0 : blk (o :: os) ++ r = offWords o ++ opDeref :: (blk os ++ r) := by simp [blk]
    have hne : blk os ++ r ≠ [] := by simp [hr]
    obtain ⟨v, q, hq⟩ := List.exists_cons_of_ne_nil hne
    have hd : ∀ l, lastOp (opDeref :: (blk os ++ r)) l = lastOp (blk os ++ r) opDeref := by
      intro l; rw [hq]; simp [lastOp]
    rw [h0]
    unfold offWords
    split
    · obtain ⟨l', h'⟩ := ih opDeref
      refine ⟨l', ?_⟩
      rw [← h', ← hd opPlusU]
      simp [lastOp, opPlusU, opDeref]
    · split
      · obtain ⟨l', h'⟩ := ih opMinus
        refine ⟨l', ?_⟩
        rw [← h']
        simp [lastOp, opConstu, opDeref, opMinus]
      · obtain ⟨l', h'⟩ := ih opDeref
        exact ⟨l', by rw [← h', ← hd l]; rfl⟩

theorem lastOp_only (os : List Int) (h : os ≠ []) (l : Nat) :
    lastOp (blk os) l = opDeref ∨ lastOp (blk os) l = opMinus := by
  have := List.dropLast_concat_getLast h
  have h0 : blk os = blk os.dropLast ++ (offWords (os.getLast h) ++ [opDeref]) := by
    conv => lhs; rw [← this]
    simp [blk]
  obtain ⟨l', hl⟩ := lastOp_blk os.dropLast (offWords (os.getLast h) ++ [opDeref]) (by simp) l
  rw [h0, hl]
  unfold offWords
  split
  · left; simp [lastOp, opPlusU, opDeref]
  · split
    · right; simp [lastOp, opConstu, opDeref, opMinus]
    · left; rfl

/-- Operations before the last offset. -/
abbrev pre (os : List Int) : List Op := os.flatMap fun o => offOps o ++ [.deref]

/-- Possible results: the last offset may be a part of a fragment. -/
theorem buildMem_ops {p : Ptr} {size : Option Nat} {gs : Name → Option Nat} {x : Name} {ws : List Nat} {t : Bool}
    (hw : p.whole) (h : buildMem p size gs = some (x, ws, t)) :
    (∃ e', buildExpr p 0 [] false = some (x, e', t)) ∧
    ((decode ws = some [] ∧ chain p 0 = ([], 0) ∧ gs x = size) ∨
      decode ws = some (pre (chain p 0).1 ++ (offOps (chain p 0).2 ++ [.fragment 0 (size.getD 0 * 8)])) ∨
      (0 ≤ (chain p 0).2 ∧
        decode ws = some (pre (chain p 0).1 ++ [.fragment ((chain p 0).2.toNat * 8) (size.getD 0 * 8)]))) := by
  unfold buildMem at h
  cases hb : buildExpr p 0 [] false with
  | none => rw [hb] at h; cases h
  | some q =>
  obtain ⟨y, rev, t'⟩ := q
  rw [hb] at h
  simp only at h
  obtain ⟨h1, h2⟩ := buildExpr_words hw hb
  simp only [List.reverse_nil, List.append_nil] at h1
  generalize hos : (chain p 0).1 = os at *
  generalize hla : (chain p 0).2 = la at *
  have hfr : ∀ o n, decode [opFragment, o, n] = some [.fragment o n] := by
    exact decode_fragment
  have happ : ∀ n, decode (rev.reverse ++ [opFragment, 0, n]) = some (pre os ++ (offOps la ++ [.fragment 0 n])) := by
    intro n
    rw [h1, List.append_assoc, decode_blk, decode_off, hfr]
    rfl
  split at h
  · rename_i hc
    simp only [Option.some.injEq, Prod.mk.injEq] at h
    obtain ⟨rfl, rfl, rfl⟩ := h
    refine ⟨⟨_, rfl⟩, .inl ⟨by rw [hc.1]; rfl, ?_, hc.2⟩⟩
    rw [hc.1] at h1
    have h3 := List.append_eq_nil_iff.mp h1.symm
    have hos0 : os = [] := by
      cases os with
      | nil => rfl
      | cons o os => simp [blk] at h3
    have hla0 : la = 0 := by
      have := h3.2
      unfold offWords at this
      split at this
      · simp at this
      · split at this
        · simp at this
        · omega
    rw [Prod.ext_iff]
    exact ⟨by rw [hos, hos0], by rw [hla, hla0]⟩
  · simp only [Option.some.injEq, Prod.mk.injEq] at h
    obtain ⟨rfl, hws, rfl⟩ := h
    refine ⟨⟨_, rfl⟩, .inr ?_⟩
    have hlast : (0 < la ∧ lastOp rev.reverse 0 = opPlusU) ∨ (rev.reverse = []) ∨
        lastOp rev.reverse 0 = opDeref ∨ lastOp rev.reverse 0 = opMinus := by
      rw [h1]
      rcases Int.lt_trichotomy la 0 with hl | hl | hl
      · obtain ⟨l', hl'⟩ := lastOp_blk os (offWords la) (by
          unfold offWords; rw [if_neg (by omega), if_pos hl]; simp) 0
        right; right; right
        rw [hl']
        unfold offWords
        rw [if_neg (by omega), if_pos hl]
        simp [lastOp, opConstu, opDeref]
      · subst hl
        have : offWords 0 = [] := rfl
        rw [this, List.append_nil]
        by_cases hos' : os = []
        · right; left; rw [hos']; rfl
        · right; right; exact lastOp_only os hos' 0
      · left
        obtain ⟨l', hl'⟩ := lastOp_blk os (offWords la) (by
          unfold offWords; rw [if_pos hl]; simp) 0
        refine ⟨hl, ?_⟩
        rw [hl']
        unfold offWords
        rw [if_pos hl]
        simp [lastOp, opPlusU, opDeref]
    cases size with
    | none =>
      left
      simp only at hws
      rw [← hws]
      have : ¬ (rev.reverse ≠ [] ∧ lastOp rev.reverse 0 = opFragment) := by
        rintro ⟨h5, h6⟩
        rcases hlast with h7 | h7 | h7 | h7
        · rw [h7.2] at h6; revert h6; decide
        · exact h5 h7
        · rw [h7] at h6; revert h6; decide
        · rw [h7] at h6; revert h6; decide
      rw [if_neg this]
      exact happ 0
    | some n =>
      simp only at hws
      rw [← hws]
      split
      · left; exact happ (n * 8)
      · rename_i hc
        right
        rcases hlast with h7 | h7 | h7 | h7
        · refine ⟨by omega, ?_⟩
          have h8 : offWords la = [opPlusU, la.toNat * 8] := by unfold offWords; rw [if_pos h7.1]
          rw [h1, h8]
          have h9 : (blk os ++ [opPlusU, la.toNat * 8]).length - 2 = (blk os).length + 0 := by simp
          rw [h9, set_append]
          simp only [List.set, List.append_assoc, List.cons_append, List.nil_append]
          rw [decode_blk, hfr]
          rfl
        · exact absurd (.inl h7) hc
        · exact absurd (.inr (.inl h7)) hc
        · exact absurd (.inr (.inr (.inl h7))) hc

/-- A debug location describes the memory the pointer refers to. If there are offsets which are not constants then the
location is a template and it describes the memory for zero offsets.

What is missing: the condition `Ptr.whole`, a location may be wrong if metadata describes a fragment of a variable,
see `build_fails`. -/
theorem build_partial (w : World) (p : Ptr) (size : Option Nat) (gs : Name → Option Nat) (x : Name) (ws : List Nat)
    (t : Bool) (hw : p.whole) (h : buildMem p size gs = some (x, ws, t)) :
    ∃ ops, decode ws = some ops ∧ (∀ o ∈ ops, aligned o) ∧ w.address x ops (p.origin.addr w) ∧
      (t = false → p.exact ∧ w.address x ops (p.addr w)) := by
  obtain ⟨⟨e', he⟩, hc⟩ := buildMem_ops hw h
  obtain ⟨_, h2⟩ := buildExpr_words hw he
  have h2 := h2 w
  rw [Int.add_zero] at h2
  have hpre : ∀ o ∈ pre (chain p 0).1, aligned o := by
    intro o ho
    simp only [pre, List.mem_flatMap, List.mem_append, List.mem_singleton] at ho
    obtain ⟨q, _, ho | ho⟩ := ho
    · exact aligned_off q o ho
    · subst ho; trivial
  have key : ∃ ops, decode ws = some ops ∧ (∀ o ∈ ops, aligned o) ∧ w.address x ops (p.origin.addr w) := by
    rcases hc with ⟨h3, h4, _⟩ | h3 | ⟨h4, h3⟩
    · refine ⟨_, h3, by simp, ?_⟩
      rw [h4] at h2
      simp only [List.foldl_nil, Int.add_zero] at h2
      rw [World.address, h2]
      rfl
    · refine ⟨_, h3, ?_, ?_⟩
      · intro o ho
        simp only [List.mem_append, List.mem_singleton] at ho
        rcases ho with ho | ho | ho
        · exact hpre o ho
        · exact aligned_off _ o ho
        · subst ho; rfl
      · rw [World.address, dwarf_blk, dwarf_off]
        simp only [dwarf, Option.some.injEq]
        omega
    · refine ⟨_, h3, ?_, ?_⟩
      · intro o ho
        simp only [List.mem_append, List.mem_singleton] at ho
        rcases ho with ho | ho
        · exact hpre o ho
        · subst ho; simp [aligned]
      · rw [World.address, dwarf_blk]
        simp only [dwarf, Option.some.injEq]
        omega
  obtain ⟨ops, h3, h4, h5⟩ := key
  refine ⟨ops, h3, h4, h5, fun ht => ?_⟩
  subst ht
  have := (buildExpr_tmpl he).2
  exact ⟨this, by rw [← origin_addr w p this]; exact h5⟩

/-- A size of the debug location is a size of the memory, a size is unknown if it is unknown for the memory.
What is missing: as in `build_partial`, `Ptr.whole`. -/
theorem build_size_partial (p : Ptr) (size : Option Nat) (ty : Name → Ty) (x : Name) (ws : List Nat)
    (t : Bool) (hw : p.whole) (hs : size ≠ some 0) (h : buildMem p size (fun x => locSize (ty x) []) = some (x, ws, t)) :
    ∃ ops, decode ws = some ops ∧ locSize (ty x) ops = size := by
  obtain ⟨_, hc⟩ := buildMem_ops hw h
  have key : ∀ q o, locSize (ty x) (q ++ [.fragment o (size.getD 0 * 8)]) = size := by
    intro q o
    unfold locSize
    simp only [List.getLast?_append, List.getLast?_singleton, Option.some_or]
    cases size with
    | none => simp
    | some n =>
      have hn : n ≠ 0 := fun h => hs (by rw [h])
      rw [if_neg (by simp; omega)]
      simp; omega
  rcases hc with ⟨h3, _, h5⟩ | h3 | ⟨h4, h3⟩
  · exact ⟨_, h3, h5⟩
  · exact ⟨_, h3, by rw [← List.append_assoc]; exact key _ _⟩
  · exact ⟨_, h3, key _ _⟩

/-- From IR to a text: the text which is printed for memory accessed in IR designates this memory. What is missing:
conditions of `unparse_partial` and `build_partial`. -/
theorem printed_partial (w : World) (p : Ptr) (size : Option Nat) (gs : Name → Option Nat) (x : Name) (ws : List Nat)
    (minimal : Bool) (hw : p.whole) (h : buildMem p size gs = some (x, ws, false)) (ops : List Op)
    (hd : decode ws = some ops) (hok : (w.type x).ok false) (hl : (w.type x).laid) (henv : ∀ k, (w.env k).ok false)
    (hlenv : ∀ k, 0 < (w.env k).size → (w.env k).laid)
    (ht : Typed w.env (w.type x) ((segments ops).map (· / 8))) :
    w.designates (unparse w.env false minimal x (w.type x) ops) (p.addr w) := by
  obtain ⟨ops', h1, h2, _, h4⟩ := build_partial w p size gs x ws false hw h
  rw [hd] at h1
  cases h1
  exact (unparse_partial w x false minimal ops _ h2 hok hl henv hlenv ht (h4 rfl).2).2

/-- `((char *)(*(*s).next) + 36)`, i.e. an element of an array in the example. -/
example : ∃ ws, buildMem (.gep (.gep (.load (.load (.addrOf 1 none))) 32) 28) (some 4) (fun _ => some 8) =
      some (1, ws, false) ∧ decode ws = some [.deref, .deref, .fragment 480 32] ∧
    unparse (fun _ => tyS) false true 1 (.ptr (some 0)) [.deref, .deref, .fragment 480 32] =
      [.ident 1, .lb, .uconst 0, .rb, .field, .ident 10, .lb, .uconst 1, .rb, .field, .ident 11,
        .lb, .uconst 1, .sep, .uconst 2, .rb] := ⟨_, rfl, by decide, rfl⟩

/-- Elements of a fragment are stored in the wrong order: an expression is not valid for memory which is
a fragment of a variable. -/
theorem build_fails : ∃ (p : Ptr) (x : Name) (ws : List Nat), p = .addrOf x (some (64, 32)) ∧
    buildMem p (some 4) (fun _ => some 16) = some (x, ws, false) ∧ decode ws = none :=
  ⟨_, 1, _, rfl, rfl, by decide⟩

/-! ## Comparison of locations -/

/-- `DIMemoryLocation`. -/
structure DILoc where
  var : Nat
  expr : Nat
  tmpl : Bool
  after : Bool
  deriving DecidableEq

/-- `operator==`, DIMemoryLocation.h:155-157. -/
def DILoc.eq (a b : DILoc) : Bool := a.var == b.var && a.expr == b.expr

/-- `operator!=`, DIMemoryLocation.h:159-161. -/
def DILoc.ne (a b : DILoc) : Bool := a.var != b.var || a.var != b.var

/-- `DenseMapInfo::isEqual`, DIMemoryLocation.h:180-186. -/
def DILoc.isEqual (a b : DILoc) : Bool :=
  a.var == b.var && a.expr == b.expr && a.tmpl == b.tmpl && a.after == b.after

/-- `DenseMapInfo::getHashValue`, DIMemoryLocation.h:177-179. `hash` is a hash of a pair of pointers. -/
def DILoc.hash (hash : Nat × Nat → Nat) (a : DILoc) : Nat := hash (a.var, a.expr)

/-- Equality of keys of a map is the equality of locations and it agrees with a hash. -/
theorem key_equal (hash : Nat × Nat → Nat) (a b : DILoc) :
    (a.isEqual b = true ↔ a = b) ∧ (a.isEqual b = true → a.eq b = true) ∧ (a.eq b = true → a.hash hash = b.hash hash) := by
  obtain ⟨v, e, t, f⟩ := a
  obtain ⟨v', e', t', f'⟩ := b
  refine ⟨?_, ?_, ?_⟩ <;> simp [DILoc.isEqual, DILoc.eq, DILoc.hash, and_assoc] <;>
    (intro h1 h2; simp [h1, h2])

/-- `!=` implies that locations are not equal. What is missing: the opposite, see `ne_fails`. -/
theorem ne_partial (a b : DILoc) (h : a.ne b = true) : a.eq b = false := by
  simp [DILoc.ne, DILoc.eq] at *
  intro h1; exact absurd h1 h

/-- Locations are neither equal nor different. -/
theorem ne_fails : ∃ a b : DILoc, a.eq b = false ∧ a.ne b = false := ⟨⟨1, 1, false, false⟩, ⟨1, 2, false, false⟩, rfl, rfl⟩

end Tsar.Unparse
