import Verif.Unparse.Spec
/-!
# The grammar is not ambiguous

A text has at most one meaning. A parser (it is a part of the proof, not a part of the model) finds each
expression the grammar allows.
-/
namespace Tsar.Unparse

/-- Subscripts. -/
def pSubs : List Tok → Option (List (Option Int) × List Tok)
  | .unknown :: .sep :: r => (pSubs r).map fun q => (none :: q.1, q.2)
  | .unknown :: r => some ([none], r)
  | .uconst n :: .sep :: r => (pSubs r).map fun q => (some (n : Int) :: q.1, q.2)
  | .uconst n :: r => some ([some (n : Int)], r)
  | .sub :: .uconst n :: .sep :: r => (pSubs r).map fun q => (some (-(n : Int)) :: q.1, q.2)
  | .sub :: .uconst n :: r => some ([some (-(n : Int))], r)
  | _ => none

/-- Postfix operations. -/
def postLoop : Nat → Ex → List Tok → Option (Ex × List Tok)
  | 0, _, _ => none
  | n + 1, e, .lb :: r =>
    match pSubs r with
    | some (is, .rb :: r') => postLoop n (.idx e is) r'
    | _ => none
  | n + 1, e, .field :: .ident x :: r => postLoop n (.field e x) r
  | _ + 1, e, ts => some (e, ts)

/-- Additive operations. -/
def sumLoop : Nat → Ex → List Tok → Option (Ex × List Tok)
  | 0, _, _ => none
  | n + 1, e, .add :: .uconst k :: r => sumLoop n (.add e k) r
  | n + 1, e, .sub :: .uconst k :: r => sumLoop n (.sub e k) r
  | _ + 1, e, ts => some (e, ts)

mutual

def pPrim : Nat → List Tok → Option (Ex × List Tok)
  | _ + 1, .ident x :: r => some (.var x, r)
  | n + 1, .lp :: r =>
    match pSum n r with
    | some (e, .rp :: r') => some (e, r')
    | _ => none
  | _, _ => none

def pUn : Nat → List Tok → Option (Ex × List Tok)
  | n + 1, .address :: r => (pUn n r).map fun q => (.addr q.1, q.2)
  | n + 1, .deref :: r => (pUn n r).map fun q => (.deref q.1, q.2)
  | n + 1, .cast :: r => (pUn n r).map fun q => (.cast q.1, q.2)
  | n + 1, ts =>
    match pPrim n ts with
    | some (e, r) => postLoop n e r
    | none => none
  | 0, _ => none

def pSum : Nat → List Tok → Option (Ex × List Tok)
  | n + 1, ts =>
    match pUn n ts with
    | some (e, r) => sumLoop n e r
    | none => none
  | 0, _ => none

end

/-- A value for all sufficiently large numbers. -/
def Ev {α} (f : Nat → α) (v : α) : Prop := ∃ N, ∀ n, N ≤ n → f n = v

theorem Ev.unique {α} {f : Nat → α} {u v : α} (h : Ev f u) (h' : Ev f v) : u = v := by
  obtain ⟨N, h⟩ := h
  obtain ⟨M, h'⟩ := h'
  rw [← h (N + M) (by omega), ← h' (N + M) (by omega)]

theorem Ev.succ {α} {f g : Nat → α} {v : α} (h : Ev g v) (hf : ∀ n, f (n + 1) = g n) : Ev f v := by
  obtain ⟨N, h⟩ := h
  refine ⟨N + 1, fun n hn => ?_⟩
  obtain ⟨m, rfl⟩ : ∃ m, n = m + 1 := ⟨n - 1, by omega⟩
  rw [hf, h m (by omega)]

theorem pSubs_ok {us is} (h : Subs us is) (rest : List Tok) :
    pSubs (us ++ .rb :: rest) = some (is, .rb :: rest) := by
  induction h with
  | one h => cases h <;> simp [pSubs]
  | cons h _ ih => cases h <;> simp [pSubs, ih]

/-- The next token is not a postfix operation. -/
def Stop : List Tok → Prop
  | .lb :: _ => False
  | .field :: _ => False
  | _ => True

theorem postLoop_stop {e r} (h : Stop r) : Ev (fun n => postLoop n e r) (some (e, r)) := by
  refine ⟨1, fun n hn => ?_⟩
  obtain ⟨m, rfl⟩ : ∃ m, n = m + 1 := ⟨n - 1, by omega⟩
  show postLoop (m + 1) e r = some (e, r)
  cases r with
  | nil => rfl
  | cons t r => cases t <;> first | rfl | exact h.elim

/-- The first token of a postfix expression. -/
def Head : List Tok → Prop
  | .ident _ :: _ => True
  | .lp :: _ => True
  | _ => False

theorem Head.append {ts us} (h : Head ts) : Head (ts ++ us) := by
  cases ts with
  | nil => exact h.elim
  | cons t ts => cases t <;> exact h

theorem Prim.head {ts e} (h : Prim ts e) : Head ts := by
  cases h <;> trivial

theorem Post.head {ts e} (h : Post ts e) : Head ts := by
  cases h with
  | prim h => exact h.head
  | idx h _ => rw [List.append_assoc]; exact (Post.head h).append
  | field x h => exact (Post.head h).append

theorem pUn_head {ts n} (h : Head ts) : pUn (n + 1) ts =
    match pPrim n ts with
    | some (e, r) => postLoop n e r
    | none => none := by
  cases ts with
  | nil => exact h.elim
  | cons t ts => cases t <;> first | exact h.elim | rfl

/-- A primary expression is found. -/
def FPrim (ts : List Tok) (e : Ex) : Prop := ∀ rest, Ev (fun n => pPrim n (ts ++ rest)) (some (e, rest))

/-- A postfix expression is found, then the next operations are processed. -/
def FPost (ts : List Tok) (e : Ex) : Prop := ∀ rest v, Ev (fun n => postLoop n e rest) v →
  Ev (fun n => match pPrim n (ts ++ rest) with
    | some (e, r) => postLoop n e r
    | none => none) v

def FUn (ts : List Tok) (e : Ex) : Prop := ∀ rest, Stop rest → Ev (fun n => pUn n (ts ++ rest)) (some (e, rest))

def FSum (ts : List Tok) (e : Ex) : Prop :=
  ∀ rest, Stop rest → ∀ v, Ev (fun n => sumLoop n e rest) v → Ev (fun n => pSum n (ts ++ rest)) v

theorem FSum.paren {ts e} (h : FSum ts e) : FPrim (.lp :: ts ++ [.rp]) e := by
  intro rest
  have h1 := h (.rp :: rest) trivial (some (e, .rp :: rest)) ⟨1, fun n hn => by
    obtain ⟨m, rfl⟩ : ∃ m, n = m + 1 := ⟨n - 1, by omega⟩
    rfl⟩
  obtain ⟨N, h1⟩ := h1
  refine Ev.succ (g := fun n => match pSum n (ts ++ .rp :: rest) with
    | some (e, .rp :: r') => some (e, r')
    | _ => none) ⟨N, fun n hn => by simp only [h1 n hn]⟩ (fun n => ?_)
  show pPrim (n + 1) (.lp :: ts ++ [.rp] ++ rest) = _
  rw [List.append_assoc]
  rfl

theorem FPrim.post {ts e} (h : FPrim ts e) : FPost ts e := by
  intro rest v hv
  obtain ⟨N, h1⟩ := h rest
  obtain ⟨M, h2⟩ := hv
  exact ⟨N + M, fun n hn => by simp only [h1 n (by omega)]; exact h2 n (by omega)⟩

theorem FPost.idx {ts e us is} (h : FPost ts e) (hs : Subs us is) : FPost (ts ++ .lb :: us ++ [.rb]) (.idx e is) := by
  intro rest v hv
  have := h (.lb :: (us ++ .rb :: rest)) v (hv.succ fun n => by
    show postLoop (n + 1) e (.lb :: (us ++ .rb :: rest)) = _
    simp only [postLoop, pSubs_ok hs rest])
  simpa using this

theorem FPost.field {ts e} (x : Name) (h : FPost ts e) : FPost (ts ++ [.field, .ident x]) (.field e x) := by
  intro rest v hv
  have := h (.field :: .ident x :: rest) v (hv.succ fun n => rfl)
  simpa using this

theorem FPost.un {ts e} (h : FPost ts e) (hh : Head ts) : FUn ts e := fun rest hr =>
  (h rest _ (postLoop_stop hr)).succ fun _ => pUn_head hh.append

theorem FUn.addr {ts e} (h : FUn ts e) : FUn (.address :: ts) (.addr e) := by
  intro rest hr
  obtain ⟨N, h1⟩ := h rest hr
  exact Ev.succ (g := fun n => (pUn n (ts ++ rest)).map fun q => (.addr q.1, q.2))
    ⟨N, fun n hn => by simp [h1 n hn]⟩ fun n => rfl

theorem FUn.deref {ts e} (h : FUn ts e) : FUn (.deref :: ts) (.deref e) := by
  intro rest hr
  obtain ⟨N, h1⟩ := h rest hr
  exact Ev.succ (g := fun n => (pUn n (ts ++ rest)).map fun q => (.deref q.1, q.2))
    ⟨N, fun n hn => by simp [h1 n hn]⟩ fun n => rfl

theorem FUn.cast {ts e} (h : FUn ts e) : FUn (.cast :: ts) (.cast e) := by
  intro rest hr
  obtain ⟨N, h1⟩ := h rest hr
  exact Ev.succ (g := fun n => (pUn n (ts ++ rest)).map fun q => (.cast q.1, q.2))
    ⟨N, fun n hn => by simp [h1 n hn]⟩ fun n => rfl

theorem FUn.sum {ts e} (h : FUn ts e) : FSum ts e := by
  intro rest hr v hv
  obtain ⟨N, h1⟩ := h rest hr
  obtain ⟨M, h2⟩ := hv
  exact Ev.succ (g := fun n => match pUn n (ts ++ rest) with
    | some (e, r) => sumLoop n e r
    | none => none) ⟨N + M, fun n hn => by
      simp only [h1 n (by omega)]; exact h2 n (by omega)⟩ fun n => rfl

theorem FSum.add {ts e} (k : Nat) (h : FSum ts e) : FSum (ts ++ [.add, .uconst k]) (.add e k) := by
  intro rest hr v hv
  have := h (.add :: .uconst k :: rest) trivial v (hv.succ fun n => rfl)
  simpa using this

theorem FSum.sub {ts e} (k : Nat) (h : FSum ts e) : FSum (ts ++ [.sub, .uconst k]) (.sub e k) := by
  intro rest hr v hv
  have := h (.sub :: .uconst k :: rest) trivial v (hv.succ fun n => rfl)
  simpa using this

theorem Sum.parse {ts e} (h : Sum ts e) : FSum ts e :=
  Sum.rec (motive_1 := fun ts e _ => FPrim ts e) (motive_2 := fun ts e _ => FPost ts e)
    (motive_3 := fun ts e _ => FUn ts e) (motive_4 := fun ts e _ => FSum ts e)
    (fun x rest => ⟨1, fun n hn => by
      obtain ⟨m, rfl⟩ : ∃ m, n = m + 1 := ⟨n - 1, by omega⟩
      rfl⟩)
    (fun _ ih => ih.paren) (fun _ ih => ih.post) (fun _ hs ih => ih.idx hs) (fun x _ ih => ih.field x)
    (fun h ih => ih.un h.head) (fun _ ih => ih.addr) (fun _ ih => ih.deref) (fun _ ih => ih.cast)
    (fun _ ih => ih.sum) (fun k _ ih => ih.add k) (fun k _ ih => ih.sub k) h

/-- The parser finds an expression. -/
theorem Sum.found {ts e} (h : Sum ts e) : Ev (fun n => pSum n ts) (some (e, [])) := by
  have := h.parse [] trivial (some (e, [])) ⟨1, fun n hn => by
    obtain ⟨m, rfl⟩ : ∃ m, n = m + 1 := ⟨n - 1, by omega⟩
    rfl⟩
  simpa using this

/-- A text is read in one way only. -/
theorem grammar_unique {ts e e'} (h : Sum ts e) (h' : Sum ts e') : e = e' := by
  have := h.found.unique h'.found
  simpa using this

/-- A text designates memory at one address only. -/
theorem designates_unique {w : World} {ts a b} (h : w.designates ts a) (h' : w.designates ts b) : a = b := by
  obtain ⟨e, h1, t, h2⟩ := h
  obtain ⟨e', h3, t', h4⟩ := h'
  have := grammar_unique h1 h3
  subst this
  rw [h2] at h4
  simpa using (Res.obj.inj (Option.some.inj h4)).1

end Tsar.Unparse
