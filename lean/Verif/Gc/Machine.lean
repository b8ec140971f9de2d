import Verif.Gc.Spec
/-
The heap with the references held outside, and its operations.
-/
namespace Voss.Gc

/-- The address the `i`-th next node will get (`Get_node`, graph.c:2356-2373, `new_rec`). -/
def Heap.nextAddr (h : Heap) (i : Nat) : Nat :=
  match h.freeList[i]? with
  | some a => a
  | none => h.size + 1 + (i - h.freeList.length)

structure St where
  heap : Heap
  roots : List (Nat × Bool)

/-- The heap after an operation. -/
def runHeap (k : Nat) (h : Heap) (roots : List (Nat × Bool)) : Op → Option Heap
  | .link o => some (h.new o).1
  | .dup n => some (h.inc n)
  | .protect n _ => some (h.protect n)
  | .forget _ => some h
  | .giveUp n => h.dec k n
  | .collect => h.gc k roots
  | .fire redex oldLeft c as => Gc.fire k h redex oldLeft c as
  | .project redex np oldLeft lastArg => Gc.project k h redex np oldLeft lastArg
  | .cutRight redex void _ lastArg => Gc.cutRight k h redex void lastArg
  | .cutLeft redex void oldLeft _ => Gc.cutLeft k h redex void oldLeft
  | .leaf redex v => some (makeLeaf h redex v)
  | .mkRef redex v oldLeft lastArg => Gc.mkRef k h redex v oldLeft lastArg
  | .deref redex _ v lastArg => Gc.deref k h redex v lastArg
  | .setRef redex t v void oldLeft => Gc.setRef k h redex t v void oldLeft
  | .cacheInsert redex t key np oldLeft lastArg kept => Gc.cacheInsert k h redex t key np oldLeft lastArg kept
  | .mkCache => some (Gc.mkCache h)
  | .cleanCaches redex v oldLeft lastArg => Gc.cleanCaches k h redex v oldLeft lastArg

/-- One operation. -/
def run (k : Nat) (s : St) (op : Op) : Option St :=
  match runHeap k s.heap s.roots op with
  | none => none
  | some h => some ⟨h, rootsAfter s.heap.nextAddr s.roots op⟩

end Voss.Gc
