import Verif.DataFlow.Model
import Verif.Graph.Spec

/-! # Specification of data-flow solvers -/

namespace Tsar
namespace DataFlow

variable {N V : Type}

/-- The documented contract of `transferFunction()` (DataFlow.h:90-94): it computes a new value from
the value before the node, stores it and says whether it differs from the previous one. -/
def Computes (F : Frame N V) (f : N → V → V) : Prop :=
  ∀ n v old, ((F.transfer n v old).1 = f n v) ∧ ((F.transfer n v old).2 = false ↔ f n v = old)

/-- A solution of data-flow equations for the specified nodes. -/
structure Solution (F : Frame N V) (f : N → V → V) (ns : List N) (s : N → V) : Prop where
  entry : s F.entry = F.boundary
  node : ∀ n ∈ ns, s n = f n ((F.sources n).foldl (fun acc c => F.meet (s c) acc) F.top)

/-- `PathValue F f n v`: the value `v` is obtained at the end of some path from the entry to the
node `n` by application of transfer functions of nodes of the path. Paths go along edges of the
graph and do not return to the entry. -/
inductive PathValue (F : Frame N V) (f : N → V → V) : N → V → Prop where
  | entry : PathValue F f F.entry F.boundary
  | step {m n : N} {v : V} : PathValue F f m v → m ∈ F.sources n → n ∈ F.nodes →
      PathValue F f n (f n v)

/-- Requirements of a monotone framework: the meet is a greatest lower bound, the top is the
greatest element and transfer functions are monotone. -/
structure Monotone [LE V] (F : Frame N V) (f : N → V → V) : Prop where
  top : ∀ v, v ≤ F.top
  meet_left : ∀ x acc, F.meet x acc ≤ x
  meet_right : ∀ x acc, F.meet x acc ≤ acc
  meet_glb : ∀ x acc v, v ≤ x → v ≤ acc → v ≤ F.meet x acc
  mono : ∀ n v w, v ≤ w → f n v ≤ f n w

/-- Both graphs describe the same edges. -/
def Inverse (F : Frame N V) : Prop := ∀ a b, b ∈ F.targets a ↔ a ∈ F.sources b

end DataFlow
end Tsar
