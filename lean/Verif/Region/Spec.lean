import Verif.Region.Model
import Verif.Graph.Spec
import Mathlib.Data.List.Chain

/-!
# Specification of regions

Which node represents a block and which edges the graph of a region must have are stated in terms of the
control flow graph.
-/

namespace Tsar
namespace Region

variable {B : Type}

/-- Description of a loop is consistent: inner loops are disjoint and consist of blocks of the loop, the
header is not in an inner loop. This is a property of `llvm::LoopInfo`. -/
structure Lp.Wf (L : Lp B) : Prop where
  header : L.header ∈ L.blocks
  headerInner : ∀ bs ∈ L.inner, L.header ∉ bs
  sub : ∀ bs ∈ L.inner, ∀ b ∈ bs, b ∈ L.blocks
  disjoint : ∀ (i j : Nat) (bs bs' : List B) (b : B), L.inner[i]? = some bs → L.inner[j]? = some bs' → b ∈ bs → b ∈ bs' → i = j

/-- Successors and predecessors of blocks describe the same edges. -/
def Cfg.Wf [BEq B] (cfg : Cfg B) : Prop := ∀ b c, (cfg.succ b).count c = (cfg.pred c).count b

/-- The node represents the block: it is an inner loop with this block or the block itself. -/
def Rep (L : Lp B) (b : B) : Node B → Prop
  | .inner i => ∃ bs, L.inner[i]? = some bs ∧ b ∈ bs
  | .block c => b = c ∧ b ∈ L.blocks ∧ ∀ bs ∈ L.inner, b ∉ bs
  | _ => False

/-- Edges of a region which are produced by edges of the control flow graph. -/
inductive CfgEdge (cfg : Cfg B) (L : Lp B) : Node B → Node B → Prop where
  /-- The entry precedes the header. -/
  | enter {h} : Rep L L.header h → CfgEdge cfg L .entry h
  /-- An edge between blocks of the loop which does not lead to the header and which is not inside
  of an inner loop. -/
  | inside {b c u v} : Rep L b u → Rep L c v → c ∈ cfg.succ b → c ≠ L.header → u ≠ v →
      CfgEdge cfg L u v
  /-- An edge to the header leads to the latch. -/
  | back {b u} : Rep L b u → L.header ∈ cfg.succ b → CfgEdge cfg L u .latch
  /-- An edge from the loop leads to the exit. -/
  | leave {b c u} : Rep L b u → c ∈ cfg.succ b → c ∉ L.blocks → CfgEdge cfg L u .exit
  /-- A block without successors precedes the exit. -/
  | stop {b u} : Rep L b u → cfg.succ b = [] → CfgEdge cfg L u .exit

/-- All edges of a region: if there are no edges to the exit then the entry precedes the exit, if
there are no edges from an inner loop then it precedes the exit. -/
def RegionEdge (cfg : Cfg B) (L : Lp B) (u v : Node B) : Prop :=
  CfgEdge cfg L u v ∨
  (u = .entry ∧ v = .exit ∧ ∀ w, ¬ CfgEdge cfg L w .exit) ∨
  (∃ i, i < L.inner.length ∧ u = .inner i ∧ v = .exit ∧ ∀ w, ¬ CfgEdge cfg L (.inner i) w)

/-! ### Reducible control flow -/

/-- A walk: it starts in the first block, `l` lists the following blocks. -/
def Walk (cfg : Cfg B) (a : B) (l : List B) : Prop := List.IsChain (fun x y => y ∈ cfg.succ x) (a :: l)

/-- The walk ends in the block. -/
def Ends (a : B) (l : List B) (b : B) : Prop := (a :: l).getLast (by simp) = b

/-- Every walk from the entry block `f` to the block `b` visits the block `d`. -/
def Dom (cfg : Cfg B) (f d b : B) : Prop := ∀ l, Walk cfg f l → Ends f l b → d ∈ f :: l

/-- Blocks of the loop are parts of a reducible control flow graph of a function with the entry block
`f` and loops are natural loops:
blocks are reachable from `f`; except edges to blocks which dominate their sources edges do not
make cycles; only the header of a loop has predecessors outside of the loop; headers (`heads` are
headers of inner loops) dominate blocks of their loops; an edge to a dominator is the back edge of the loop or it is
inside of an inner loop. -/
structure Natural (cfg : Cfg B) (f : B) (L : Lp B) (heads : List B) : Prop where
  reach : ∀ b ∈ L.blocks, ∃ l, Walk cfg f l ∧ Ends f l b
  reducible : ∃ rank : B → Nat, ∀ b c, c ∈ cfg.succ b → rank b < rank c ∨ Dom cfg f c b
  closed : ∀ b c, c ∈ L.blocks → c ≠ L.header → c ∈ cfg.succ b → b ∈ L.blocks
  dom : ∀ b ∈ L.blocks, Dom cfg f L.header b
  length : heads.length = L.inner.length
  innerClosed : ∀ (i : Nat) bs h, L.inner[i]? = some bs → heads[i]? = some h →
    ∀ b c, c ∈ bs → c ≠ h → c ∈ cfg.succ b → b ∈ bs
  innerDom : ∀ (i : Nat) bs h, L.inner[i]? = some bs → heads[i]? = some h → h ∈ bs ∧ ∀ b ∈ bs, Dom cfg f h b
  back : ∀ b c, b ∈ L.blocks → c ∈ L.blocks → c ∈ cfg.succ b → Dom cfg f c b →
    c = L.header ∨ ∃ bs ∈ L.inner, b ∈ bs ∧ c ∈ bs

end Region
end Tsar
