import Mathlib.Data.List.Basic

/-!
# Extraction of calls into their own basic blocks

Model of the pass `extract-call` (`lib/Transform/IR/CallExtractor.cpp`) and of the check which
the interprocedural analysis of live memory makes before it relies on the pass
(`checkCallsFrom`, `lib/Analysis/Memory/GlobalLiveMemory.cpp`).

A function is the list of its basic blocks in the order in which they are stored.  Values are not
modelled: `BasicBlock::splitBasicBlock` of LLVM moves instructions without a change, adds an
unconditional branch and updates PHI-nodes of the successors; this is a part of the trusted base.
-/

namespace Tsar.Calls

/-- Kind of an instruction which is not a terminator.
`call rec` is a call which is not a marker (`rec`: the call graph has a record for this call),
`marker` is an intrinsic which describes debug information or lifetime of memory
(`isMemoryMarkerIntrinsic`, `isDbgInfoIntrinsic`). -/
inductive Kind
  | call (rec' : Bool)
  | marker
  | other
  deriving DecidableEq, Repr

/-- An instruction, `id` distinguishes instructions of a function. -/
structure Inst where
  id : Nat
  kind : Kind
  deriving DecidableEq, Repr

/-- A terminator: either a terminator of the original function (`call`: this is an `invoke`) with
its successors or an unconditional branch inserted by `splitBasicBlock`. -/
inductive Term
  | orig (id : Nat) (call : Bool) (succs : List Nat)
  | jump (dst : Nat)
  deriving DecidableEq, Repr

/-- A basic block: its label, instructions before the terminator, the terminator. -/
structure Block where
  lab : Nat
  body : List Inst
  term : Term
  deriving DecidableEq, Repr

/-- `needToExtract`: CallExtractor.cpp:60-65. -/
def Inst.extract (i : Inst) : Bool :=
  match i.kind with
  | .call _ => true
  | _ => false

/-- `getNextUsefulInstruction`: CallExtractor.cpp:67-76.  `rest` are the instructions which follow
`i` in its block, `none` is the terminator of this block.  The loop tests `Inst` instead of `I`
(line 69), so if `i` is a marker all instructions are skipped and there is no result. -/
def nextUseful (i : Inst) (rest : List Inst) : Option (Option Inst) :=
  match i.kind with
  | .marker => none
  | _ => some rest.head?

/-- `BasicBlock::splitBasicBlock` at the instruction with the number `k`, `f` is a label of the new
block. -/
def Block.split (b : Block) (k f : Nat) : Block × Block :=
  (⟨b.lab, b.body.take k, .jump f⟩, ⟨f, b.body.drop k, b.term⟩)

/-- The body of the outer loop in `runOnFunction` (CallExtractor.cpp:82-106) for a block `b`.
`f` is the first label which is not used.  Result: the block after transformation, the blocks which
are inserted after it and will be visited next, the first unused label. -/
def visit (b : Block) (f : Nat) : Block × List Block × Nat :=
  match b.body with
  | [] => (b, [], f)
  | i :: rest =>
    if i.extract then
      match nextUseful i rest with
      | some (some _) =>
        let s := b.split 1 f
        (s.1, [s.2], f + 1)
      | _ => (b, [], f)
    else
      match rest.findIdx? Inst.extract with
      | none => (b, [], f)
      | some k =>
        let s := b.split (k + 1) f
        match s.2.body with
        | [] => (b, [], f)
        | c :: tail =>
          match nextUseful c tail with
          | some (some _) =>
            let s' := s.2.split 1 (f + 1)
            (s.1, [s'.1, s'.2], f + 2)
          | _ => (s.1, [s.2], f + 1)

/-- Measure of termination: each new block is shorter than the visited one. -/
def weight (bs : List Block) : Nat := (bs.map fun b => 2 * b.body.length + 1).sum

theorem weight_visit (b : Block) (f : Nat) : weight (visit b f).2.1 < weight [b] := by
  unfold visit
  cases hb : b.body with
  | nil => simp [weight]
  | cons i rest =>
    simp only
    split
    · cases hr : nextUseful i rest with
      | none => simp [weight]
      | some o =>
        cases o with
        | none => simp [weight]
        | some _ =>
          simp [weight, Block.split, hb]
    · cases hk : rest.findIdx? Inst.extract with
      | none => simp [weight]
      | some k =>
        have hk' : k < rest.length := by
          have := List.findIdx?_eq_some_iff_getElem.1 hk
          exact this.1
        simp only [Block.split, hb, List.drop_succ_cons]
        cases hd : rest.drop k with
        | nil => simp [weight]
        | cons c tail =>
          have hl : tail.length + 1 = rest.length - k := by
            have := congrArg List.length hd
            simpa using this.symm
          simp only
          split
          · simp [weight, hb]; omega
          · simp [weight, hb]; omega

theorem weight_append (xs ys : List Block) : weight (xs ++ ys) = weight xs + weight ys := by
  simp [weight]

theorem weight_cons (b : Block) (ys : List Block) : weight (b :: ys) = weight [b] + weight ys := by
  simp [weight]

/-- `runOnFunction`: CallExtractor.cpp:78-111.  The blocks inserted by a split follow the split
block, so they are visited next. -/
def extractLoop (todo : List Block) (f : Nat) : List Block :=
  match todo with
  | [] => []
  | b :: bs => (visit b f).1 :: extractLoop ((visit b f).2.1 ++ bs) (visit b f).2.2
  termination_by weight todo
  decreasing_by
    rw [weight_append, weight_cons]
    have := weight_visit b f
    omega

/-- Labels a block mentions. -/
def Block.labels (b : Block) : List Nat :=
  b.lab :: match b.term with
    | .orig _ _ succs => succs
    | .jump t => [t]

/-- A label which is not used in a function. -/
def freshLabel (F : List Block) : Nat := (F.flatMap Block.labels).foldr max 0 + 1

/-- The pass for the whole function. -/
def extractCalls (F : List Block) : List Block := extractLoop F (freshLabel F)

/-- The loop over a block in `checkCallsFrom` (GlobalLiveMemory.cpp:156-170), `useful` is
`HasUsefulInstr`.  An element of the list is the kind of an instruction. -/
def checkLoop : Bool → List Kind → Bool
  | _, [] => true
  | u, .marker :: is => checkLoop u is
  | u, .call _ :: is => if u then false else checkLoop true is
  | _, .other :: is => checkLoop true is

/-- Kind of a terminator, an `invoke` is `CallBase`. -/
def Term.kind : Term → Kind
  | .orig _ true _ => .call true
  | _ => .other

/-- Kinds of all instructions of a block. -/
def Block.kinds (b : Block) : List Kind := b.body.map (·.kind) ++ [b.term.kind]

/-- `checkCallsFrom`: GlobalLiveMemory.cpp:150-174.  Blocks of the calls which have records in the
call graph are checked. -/
def checkCalls (F : List Block) : Bool :=
  F.all fun b => !(b.kinds.contains (.call true)) || checkLoop false b.kinds

/-! ## Specification -/

/-- An event of an execution: a non-terminator instruction or an original terminator. -/
inductive Ev
  | inst (i : Inst)
  | term (id : Nat)
  deriving DecidableEq, Repr

/-- The events of a list of instructions. -/
def evs (is : List Inst) : List Ev := is.map .inst

/-- Traces of (possibly unfinished) executions from the beginning of a block with the label `l`.
A branch inserted by the pass is not an event. -/
inductive Run (F : List Block) : Nat → List Ev → Prop
  | stop {b t} : b ∈ F → t <+: b.body → Run F b.lab (evs t)
  | jump {b l' tr} : b ∈ F → b.term = .jump l' → Run F l' tr → Run F b.lab (evs b.body ++ tr)
  | exit {b id c ss} : b ∈ F → b.term = .orig id c ss → Run F b.lab (evs b.body ++ [.term id])
  | next {b id c ss l' tr} : b ∈ F → b.term = .orig id c ss → l' ∈ ss → Run F l' tr →
      Run F b.lab (evs b.body ++ .term id :: tr)

/-- A call is alone in its block: it is the only instruction before the terminator. -/
def Alone (b : Block) : Prop := ∀ i ∈ b.body, i.extract = true → b.body = [i]

/-- Labels of a function are less than `f`. -/
def Below (F : List Block) (f : Nat) : Prop := ∀ b ∈ F, ∀ l ∈ b.labels, l < f

/-! ## One split -/

theorem run_split {A B : List Block} {b : Block} {k f : Nat} (hf : Below (A ++ b :: B) f)
    {l : Nat} (hl : l ≠ f) (tr : List Ev) :
    Run (A ++ b :: B) l tr ↔ Run (A ++ (b.split k f).1 :: (b.split k f).2 :: B) l tr := by
  have hbody : b.body = b.body.take k ++ b.body.drop k := (List.take_append_drop k b.body).symm
  have hev : ∀ t : List Ev,
      evs (b.body.take k) ++ (evs (b.body.drop k) ++ t) = evs b.body ++ t := by
    intro t
    rw [← List.append_assoc]
    simp only [evs, ← List.map_append, List.take_append_drop]
  have hmem : ∀ c ∈ A ++ b :: B, c ≠ b → c ∈ A ++ (b.split k f).1 :: (b.split k f).2 :: B := by
    intro c hc hne
    simp at hc ⊢
    rcases hc with h | h | h
    · exact .inl h
    · exact absurd h hne
    · exact .inr (.inr (.inr h))
  have h1 : (b.split k f).1 ∈ A ++ (b.split k f).1 :: (b.split k f).2 :: B := by simp
  have h2 : (b.split k f).2 ∈ A ++ (b.split k f).1 :: (b.split k f).2 :: B := by simp
  constructor
  · intro h
    clear hl
    induction h with
    | @stop c t hc ht =>
      by_cases e : c = b
      · subst e
        by_cases hle : t.length ≤ k
        · refine Run.stop (b := (c.split k f).1) h1 ?_
          show t <+: c.body.take k
          rw [List.prefix_take_iff]
          exact ⟨ht, hle⟩
        · obtain ⟨s, hs⟩ := ht
          have hk : k ≤ t.length := by omega
          have e1 : c.body.take k = t.take k := by
            rw [← hs, List.take_append_of_le_length hk]
          have e2 : c.body.drop k = t.drop k ++ s := by
            rw [← hs, List.drop_append_of_le_length hk]
          have r2 : Run _ f (evs (t.drop k)) :=
            Run.stop (b := (c.split k f).2) (t := t.drop k) h2
              (show t.drop k <+: c.body.drop k by rw [e2]; exact ⟨s, rfl⟩)
          have := Run.jump (b := (c.split k f).1) h1 rfl r2
          have e3 : evs (c.split k f).1.body ++ evs (t.drop k) = evs t := by
            show evs (c.body.take k) ++ evs (t.drop k) = evs t
            rw [e1]
            simp only [evs, ← List.map_append, List.take_append_drop]
          rw [e3] at this
          exact this
      · exact Run.stop (hmem _ hc e) ht
    | @jump c l' tr hc ht _ ih =>
      by_cases e : c = b
      · subst e
        have r2 := Run.jump (b := (c.split k f).2) h2 (show c.term = _ from ht) ih
        have := Run.jump (b := (c.split k f).1) h1 rfl r2
        rw [← hev]
        exact this
      · exact Run.jump (hmem _ hc e) ht ih
    | @exit c id cl ss hc ht =>
      by_cases e : c = b
      · subst e
        have r2 := Run.exit (b := (c.split k f).2) h2 (show c.term = _ from ht)
        have := Run.jump (b := (c.split k f).1) h1 rfl r2
        rw [← hev]
        exact this
      · exact Run.exit (hmem _ hc e) ht
    | @next c id cl ss l' tr hc ht hl' _ ih =>
      by_cases e : c = b
      · subst e
        have r2 := Run.next (b := (c.split k f).2) h2 (show c.term = _ from ht) hl' ih
        have := Run.jump (b := (c.split k f).1) h1 rfl r2
        rw [← hev]
        exact this
      · exact Run.next (hmem _ hc e) ht hl' ih
  · intro h
    have hb : b ∈ A ++ b :: B := by simp
    have hmem' : ∀ c ∈ A ++ (b.split k f).1 :: (b.split k f).2 :: B,
        c = (b.split k f).1 ∨ c = (b.split k f).2 ∨ c ∈ A ++ b :: B := by
      intro c hc
      simp at hc ⊢
      tauto
    have hlab : ∀ c ∈ A ++ b :: B, c.lab ≠ f := fun c hc =>
      Nat.ne_of_lt (hf c hc _ (by simp [Block.labels]))
    suffices hs : (l ≠ f → Run (A ++ b :: B) l tr) ∧
        (l = f → Run (A ++ b :: B) b.lab (evs (b.body.take k) ++ tr)) from hs.1 hl
    clear hl
    induction h with
    | @stop c t hc ht =>
      rcases hmem' c hc with e | e | e
      · subst e
        refine ⟨fun _ => Run.stop (b := b) hb (ht.trans (List.take_prefix k b.body)), fun h => ?_⟩
        exact absurd h (hlab b hb)
      · subst e
        refine ⟨fun h => absurd rfl h, fun _ => ?_⟩
        have : evs (b.body.take k) ++ evs t = evs (b.body.take k ++ t) := by simp [evs]
        rw [this]
        refine Run.stop hb ?_
        obtain ⟨s, hs⟩ := ht
        refine ⟨s, ?_⟩
        rw [List.append_assoc, hs]
        exact hbody.symm
      · exact ⟨fun _ => Run.stop e ht, fun h => absurd h (hlab c e)⟩
    | @jump c l' tr hc ht _ ih =>
      rcases hmem' c hc with e | e | e
      · subst e
        refine ⟨fun _ => ?_, fun h => absurd h (hlab b hb)⟩
        have : l' = f := by simpa [Block.split] using ht.symm
        exact ih.2 this
      · subst e
        refine ⟨fun h => absurd rfl h, fun _ => ?_⟩
        have hne : l' ≠ f := by
          refine Nat.ne_of_lt (hf b hb _ ?_)
          have : b.term = .jump l' := ht
          simp [Block.labels, this]
        have := Run.jump hb ht (ih.1 hne)
        rw [← hev] at this
        exact this
      · refine ⟨fun _ => ?_, fun h => absurd h (hlab c e)⟩
        have hne : l' ≠ f := by
          refine Nat.ne_of_lt (hf c e _ ?_)
          simp [Block.labels, ht]
        exact Run.jump e ht (ih.1 hne)
    | @exit c id cl ss hc ht =>
      rcases hmem' c hc with e | e | e
      · subst e
        simp [Block.split] at ht
      · subst e
        refine ⟨fun h => absurd rfl h, fun _ => ?_⟩
        have := Run.exit hb ht
        rw [← hev] at this
        exact this
      · exact ⟨fun _ => Run.exit e ht, fun h => absurd h (hlab c e)⟩
    | @next c id cl ss l' tr hc ht hl' _ ih =>
      rcases hmem' c hc with e | e | e
      · subst e
        simp [Block.split] at ht
      · subst e
        refine ⟨fun h => absurd rfl h, fun _ => ?_⟩
        have hne : l' ≠ f := by
          refine Nat.ne_of_lt (hf b hb _ ?_)
          have : b.term = .orig id cl ss := ht
          simp [Block.labels, this, hl']
        have := Run.next hb ht hl' (ih.1 hne)
        rw [← hev] at this
        exact this
      · refine ⟨fun _ => ?_, fun h => absurd h (hlab c e)⟩
        have hne : l' ≠ f := by
          refine Nat.ne_of_lt (hf c e _ ?_)
          simp [Block.labels, ht, hl']
        exact Run.next e ht hl' (ih.1 hne)

theorem below_split {A B : List Block} {b : Block} {k f : Nat} (hf : Below (A ++ b :: B) f) :
    Below (A ++ (b.split k f).1 :: (b.split k f).2 :: B) (f + 1) := by
  have hb : ∀ l ∈ b.labels, l < f := hf b (by simp)
  intro c hc l hl
  have hcs : c = (b.split k f).1 ∨ c = (b.split k f).2 ∨ c ∈ A ++ b :: B := by
    simp at hc ⊢
    tauto
  rcases hcs with e | e | e
  · subst e
    simp [Block.split, Block.labels] at hl
    rcases hl with h | h
    · have := hb b.lab (by simp [Block.labels]); omega
    · omega
  · subst e
    simp only [Block.split, Block.labels, List.mem_cons] at hl
    rcases hl with h | h
    · omega
    · have := hb l (by simp only [Block.labels, List.mem_cons]; exact .inr h); omega
  · have := hf c e l hl; omega

/-- A sequence of splits with new labels. -/
inductive Splits : List Block → Nat → List Block → Nat → Prop
  | refl {F f} : Splits F f F f
  | step {A B b k f F' f'} : Splits (A ++ (b.split k f).1 :: (b.split k f).2 :: B) (f + 1) F' f' →
      Splits (A ++ b :: B) f F' f'

theorem run_splits {F F' : List Block} {f f' : Nat} (h : Splits F f F' f') (hb : Below F f)
    {l : Nat} (hl : l < f) (tr : List Ev) : Run F l tr ↔ Run F' l tr := by
  induction h with
  | refl => exact Iff.rfl
  | step _ ih => exact (run_split hb (by omega) tr).trans (ih (below_split hb) (by omega))

/-- What `visit` does is none, one or two splits. -/
theorem splits_visit (A B : List Block) (b : Block) (f : Nat) :
    Splits (A ++ b :: B) f (A ++ (visit b f).1 :: ((visit b f).2.1 ++ B)) (visit b f).2.2 := by
  unfold visit
  cases hb : b.body with
  | nil => exact .refl
  | cons i rest =>
    simp only
    split
    · cases hr : nextUseful i rest with
      | none => exact .refl
      | some o =>
        cases o with
        | none => exact .refl
        | some _ => exact .step .refl
    · cases hk : rest.findIdx? Inst.extract with
      | none => exact .refl
      | some k =>
        simp only
        cases hd : (b.split (k + 1) f).2.body with
        | nil => exact .refl
        | cons c tail =>
          simp only
          cases hr : nextUseful c tail with
          | none => exact .step .refl
          | some o =>
            cases o with
            | none => exact .step .refl
            | some _ =>
              refine .step (k := k + 1) ?_
              have : Splits ((A ++ [(b.split (k + 1) f).1]) ++ (b.split (k + 1) f).2 :: B) (f + 1)
                  ((A ++ [(b.split (k + 1) f).1]) ++ ((b.split (k + 1) f).2.split 1 (f + 1)).1 ::
                    ((b.split (k + 1) f).2.split 1 (f + 1)).2 :: B) (f + 1 + 1) := .step .refl
              simpa using this

theorem splits_trans {F G H : List Block} {f g h : Nat} (h1 : Splits F f G g)
    (h2 : Splits G g H h) : Splits F f H h := by
  induction h1 with
  | refl => exact h2
  | step _ ih => exact .step (ih h2)

theorem splits_loop (todo : List Block) (f : Nat) (A : List Block) :
    ∃ f', Splits (A ++ todo) f (A ++ extractLoop todo f) f' := by
  induction todo, f using extractLoop.induct generalizing A with
  | case1 => unfold extractLoop; exact ⟨_, .refl⟩
  | case2 f b bs ih =>
    unfold extractLoop
    obtain ⟨f', h⟩ := ih (A ++ [(visit b f).1])
    refine ⟨f', splits_trans (splits_visit A bs b f) ?_⟩
    simpa using h

theorem below_fresh (F : List Block) : Below F (freshLabel F) := by
  intro b hb l hl
  have hm : l ∈ F.flatMap Block.labels := List.mem_flatMap.2 ⟨b, hb, hl⟩
  have : ∀ (ls : List Nat), l ∈ ls → l ≤ ls.foldr max 0 := by
    intro ls
    induction ls with
    | nil => simp
    | cons x xs ih =>
      intro h
      simp only [List.mem_cons, List.foldr_cons] at h ⊢
      rcases h with h | h
      · omega
      · have := ih h
        omega
  exact Nat.lt_succ_of_le (this _ hm)

/-- **C91.** The pass does not change executions: from each label of the function the same
sequences of instructions and terminators are executed. -/
theorem extract_run (F : List Block) (l : Nat) (hl : l ∈ F.flatMap Block.labels) (tr : List Ev) :
    Run (extractCalls F) l tr ↔ Run F l tr := by
  obtain ⟨f', h⟩ := splits_loop F (freshLabel F) []
  rw [List.nil_append, List.nil_append] at h
  obtain ⟨b, hb, hlb⟩ := List.mem_flatMap.1 hl
  exact (run_splits h (below_fresh F) (below_fresh F b hb l hlb) tr).symm

theorem splits_body {F G : List Block} {f g : Nat} (h : Splits F f G g) :
    G.flatMap (·.body) = F.flatMap (·.body) := by
  induction h with
  | refl => rfl
  | step _ ih =>
    rw [ih]
    simp only [List.flatMap_append, List.flatMap_cons, Block.split]
    rw [← List.append_assoc (List.take _ _), List.take_append_drop]

/-- **C91.** Instructions are neither lost, nor duplicated, nor reordered. -/
theorem extract_body (F : List Block) :
    (extractCalls F).flatMap (·.body) = F.flatMap (·.body) := by
  obtain ⟨f', h⟩ := splits_loop F (freshLabel F) []
  rw [List.nil_append, List.nil_append] at h
  exact splits_body h

/-- The original terminators of a function. -/
def terms (F : List Block) : List Term :=
  F.filterMap fun b => match b.term with
    | .jump _ => none
    | t => some t

theorem splits_terms {F G : List Block} {f g : Nat} (h : Splits F f G g) : terms G = terms F := by
  induction h with
  | refl => rfl
  | @step A B b k f _ _ _ ih =>
    rw [ih]
    unfold terms
    rw [List.filterMap_append, List.filterMap_append]
    congr 1

/-- **C91.** Terminators of the function remain the same. -/
theorem extract_terms (F : List Block) : terms (extractCalls F) = terms F := by
  obtain ⟨f', h⟩ := splits_loop F (freshLabel F) []
  rw [List.nil_append, List.nil_append] at h
  exact splits_terms h

/-- **C91.** The entry block of the function remains the first one. -/
theorem extract_entry (b : Block) (bs : List Block) :
    (extractCalls (b :: bs)).head?.map (·.lab) = some b.lab := by
  unfold extractCalls extractLoop
  simp only [List.head?_cons, Option.map_some, Option.some.injEq]
  unfold visit
  dsimp only [Block.split]
  repeat' (first | rfl | split)

theorem alone_visit (b : Block) (f : Nat) : Alone (visit b f).1 := by
  unfold visit
  cases hb : b.body with
  | nil => simp [Alone, hb]
  | cons i rest =>
    simp only
    split
    next hi =>
      have hn : nextUseful i rest = some rest.head? := by
        unfold nextUseful
        cases hk : i.kind <;> simp [Inst.extract, hk] at hi ⊢
      rw [hn]
      cases rest with
      | nil => simp [Alone, hb]
      | cons x xs => simp [Alone, Block.split, hb]
    next hi =>
      have hall : ∀ k, rest.findIdx? Inst.extract = some k →
          ∀ j ∈ List.take (k + 1) (i :: rest), j.extract = false := by
        intro k hk j hj
        obtain ⟨hlt, _, hprev⟩ := List.findIdx?_eq_some_iff_getElem.1 hk
        simp only [List.take_succ_cons, List.mem_cons] at hj
        rcases hj with rfl | hj
        · simpa using hi
        · obtain ⟨n, hn, e⟩ := List.mem_iff_getElem.1 hj
          rw [List.length_take] at hn
          rw [List.getElem_take] at e
          have := hprev n (by omega)
          rw [e] at this
          simpa using this
      cases hk : rest.findIdx? Inst.extract with
      | none =>
        intro j hj hx
        simp only [hb, List.mem_cons] at hj
        rcases hj with rfl | hj
        · exact absurd hx hi
        · exact absurd (List.findIdx?_eq_none_iff.1 hk j hj) (by simp [hx])
      | some k =>
        have hs1 : ∀ j ∈ (b.split (k + 1) f).1.body, j.extract = false := by
          intro j hj
          exact hall k hk j (by simpa [Block.split, hb] using hj)
        have hal : Alone (b.split (k + 1) f).1 := fun j hj hx => by
          rw [hs1 j hj] at hx; simp at hx
        have hne : (b.split (k + 1) f).2.body ≠ [] := by
          have := (List.findIdx?_eq_some_iff_getElem.1 hk).1
          simp [Block.split, hb]; omega
        simp only
        split
        next h => exact absurd h hne
        next => split <;> exact hal

theorem alone_loop (todo : List Block) (f : Nat) : ∀ b ∈ extractLoop todo f, Alone b := by
  induction todo, f using extractLoop.induct with
  | case1 => unfold extractLoop; simp
  | case2 f b bs ih =>
    unfold extractLoop
    intro c hc
    rcases List.mem_cons.1 hc with rfl | hc
    · exact alone_visit b f
    · exact ih c hc

/-- **C91.** After the pass each call is alone in its basic block. -/
theorem extract_alone (F : List Block) : ∀ b ∈ extractCalls F, Alone b :=
  alone_loop F _

/-- A function without `invoke`. -/
def NoInvoke (F : List Block) : Prop := ∀ b ∈ F, ∀ id ss, b.term ≠ .orig id true ss

theorem checkLoop_iff (ks : List Kind) : ∀ u, checkLoop u ks = true ↔
    ∀ pre r post, ks = pre ++ .call r :: post → u = false ∧ ∀ k ∈ pre, k = .marker := by
  induction ks with
  | nil => intro u; simp [checkLoop]
  | cons k ks ih =>
    intro u
    have key : ∀ (v : Bool), (∀ pre r post, ks = pre ++ .call r :: post → v = false ∧
        ∀ k ∈ pre, k = .marker) → k ≠ .marker → v = true →
        ∀ pre r post, k :: ks = pre ++ .call r :: post → pre = [] := by
      intro v h _ hv pre r post e
      cases pre with
      | nil => rfl
      | cons x xs =>
        simp at e
        have := (h xs r post e.2).1
        rw [hv] at this; simp at this
    cases k with
    | marker =>
      simp only [checkLoop]
      rw [ih u]
      constructor
      · intro h pre r post e
        cases pre with
        | nil => simp at e
        | cons x xs =>
          simp at e
          obtain ⟨h1, h2⟩ := h xs r post e.2
          exact ⟨h1, by simpa using ⟨e.1.symm, h2⟩⟩
      · intro h pre r post e
        obtain ⟨h1, h2⟩ := h (.marker :: pre) r post (by simp [e])
        exact ⟨h1, fun k hk => h2 k (by simp [hk])⟩
    | call r0 =>
      cases u with
      | true =>
        simp only [checkLoop]
        constructor
        · simp
        · intro h
          have := (h [] r0 ks rfl).1
          simp at this
      | false =>
        simp only [checkLoop, Bool.false_eq_true, if_false]
        rw [ih true]
        constructor
        · intro h pre r post e
          have := key true h (by simp) rfl pre r post e
          subst this
          simp
        · intro h pre r post e
          have := (h (.call r0 :: pre) r post (by simp [e])).2 (.call r0) (by simp)
          simp at this
    | other =>
      simp only [checkLoop]
      rw [ih true]
      constructor
      · intro h pre r post e
        have := key true h (by simp) rfl pre r post e
        subst this
        simp at e
      · intro h pre r post e
        have := (h (.other :: pre) r post (by simp [e])).2 .other (by simp)
        simp at this

/-- **C91.** The check succeeds exactly if in every block with a call which is known to the call
graph each call follows markers only. -/
theorem checkCalls_iff (F : List Block) : checkCalls F = true ↔
    ∀ b ∈ F, Kind.call true ∈ b.kinds →
      ∀ pre r post, b.kinds = pre ++ .call r :: post → ∀ k ∈ pre, k = .marker := by
  unfold checkCalls
  rw [List.all_eq_true]
  refine forall₂_congr fun b _ => ?_
  rw [Bool.or_eq_true, Bool.not_eq_true', ← Bool.not_eq_true, List.contains_iff_mem,
    checkLoop_iff]
  constructor
  · rintro (h | h) hm
    · exact absurd hm h
    · exact fun pre r post e => (h pre r post e).2
  · intro h
    by_cases hm : Kind.call true ∈ b.kinds
    · exact .inr fun pre r post e => ⟨rfl, h hm pre r post e⟩
    · exact .inl hm

/-- **C91.** The pass makes the check of the interprocedural analysis succeed (for functions
without `invoke`, so this is the case for C programs). -/
theorem extract_check (F : List Block) (hF : NoInvoke F) : checkCalls (extractCalls F) = true := by
  rw [checkCalls_iff]
  intro b hb _ pre r post e k hk
  have ht : b.term.kind = .other := by
    cases hbt : b.term with
    | jump t => rfl
    | orig id c ss =>
      have : b.term ∈ terms (extractCalls F) := by
        refine List.mem_filterMap.2 ⟨b, hb, ?_⟩
        rw [hbt]
      rw [extract_terms] at this
      obtain ⟨a, ha, e2⟩ := List.mem_filterMap.1 this
      have : a.term = b.term := by
        cases h : a.term with
        | jump _ => rw [h] at e2; simp at e2
        | orig _ _ _ => rw [h] at e2; simpa using e2
      cases c with
      | false => rfl
      | true => exact absurd (this.trans hbt) (hF a ha id ss)
  have hal := extract_alone F b hb
  unfold Block.kinds at e
  rw [ht] at e
  have hin : Kind.call r ∈ b.body.map (·.kind) := by
    have : Kind.call r ∈ b.body.map (·.kind) ++ [Kind.other] := by rw [e]; simp
    simpa using this
  obtain ⟨i, hi, hik⟩ := List.mem_map.1 hin
  have hbody := hal i hi (by simp [Inst.extract, hik])
  rw [hbody] at e
  simp only [List.map_cons, List.map_nil, List.cons_append, List.nil_append] at e
  cases pre with
  | nil => simp at hk
  | cons x xs =>
    cases xs with
    | nil => simp at e
    | cons y ys => simp at e

/-! ## Examples and disagreements -/

abbrev exCall (n : Nat) : Inst := ⟨n, .call true⟩
abbrev exOther (n : Nat) : Inst := ⟨n, .other⟩
abbrev exMark (n : Nat) : Inst := ⟨n, .marker⟩

/-- `x = 1; f(); g(); y = 2; if (...) ...` in a loop. -/
abbrev exF : List Block :=
  [⟨0, [exOther 1, exCall 2, exCall 3, exOther 4], .orig 5 false [0, 1]⟩,
   ⟨1, [exCall 6, exMark 7, exOther 8], .orig 9 false []⟩]

theorem exF_result : extractCalls exF =
    [⟨0, [exOther 1], .jump 2⟩, ⟨2, [exCall 2], .jump 3⟩, ⟨3, [exCall 3], .jump 4⟩,
     ⟨4, [exOther 4], .orig 5 false [0, 1]⟩, ⟨1, [exCall 6], .jump 5⟩,
     ⟨5, [exMark 7, exOther 8], .orig 9 false []⟩] := by
  have hf : freshLabel exF = 2 := by decide
  unfold extractCalls
  rw [hf]
  repeat (unfold extractLoop; simp [visit, Inst.extract, nextUseful, Block.split,
    List.findIdx?, List.findIdx?.go])

example : checkCalls exF = false := by decide
example : NoInvoke exF := by
  intro b hb id ss
  simp [exF] at hb
  rcases hb with rfl | rfl <;> simp
example : Run exF 0 [.inst (exOther 1), .inst (exCall 2)] :=
  Run.stop (F := exF) (b := ⟨0, [exOther 1, exCall 2, exCall 3, exOther 4], .orig 5 false [0, 1]⟩)
    (t := [exOther 1, exCall 2]) (by simp) ⟨[exCall 3, exOther 4], rfl⟩

/-- `getNextUsefulInstruction` is written in order to skip markers which follow a call, but it
tests a wrong instruction: a block with a call followed by a marker is split although only markers
follow the call. -/
theorem marker_is_skipped_fails : ¬ ∀ (i : Inst) (rest : List Inst), i.extract = true →
    (∀ j ∈ rest, j.kind = .marker) → nextUseful i rest = some none := by
  intro h
  have := h (exCall 0) [exMark 1] rfl (by simp)
  simp [nextUseful] at this

/-- The comment of `checkCallsFrom` says that it returns true if each call is extracted to its own
block, but instructions after a call are not checked. -/
theorem check_alone_fails : ¬ ∀ F, checkCalls F = true → ∀ b ∈ F, Alone b := by
  intro h
  have := h [⟨0, [exCall 1, exOther 2], .orig 3 false []⟩] (by decide)
    ⟨0, [exCall 1, exOther 2], .orig 3 false []⟩ (by simp) (exCall 1) (by simp) rfl
  simp at this

end Tsar.Calls
