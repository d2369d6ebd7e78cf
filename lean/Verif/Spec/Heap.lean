import Verif.Model.Heap
/-!
# What a blame shows, given the memory
-/
namespace Ripsrc

/-- The line a pointer shows. -/
def Heap.load (h : Heap) (p : Nat) : Line :=
  match h.lines[p]? with
  | none => { line := [], commit := [] }
  | some l => { line := h.bufs[l.buf]?.getD [], commit := l.commit }

/-- What a caller that holds the blame `b` sees. -/
def Heap.view (h : Heap) (b : HBlame) : Blame where
  commit := b.commit
  lines := (h.elems b.lines).map h.load
  isBinary := b.isBinary

/-- A pointer to an allocated line whose content is allocated. -/
def Heap.ValidPtr (h : Heap) (p : Nat) : Prop := ∃ l, h.lines[p]? = some l ∧ l.buf < h.bufs.length

/-- A slice whose backing array is allocated, large enough, and holds valid pointers. -/
structure Heap.ValidSlice (h : Heap) (s : Slice) : Prop where
  len : s.len ≤ (h.back s).length
  arr : ∀ a, s.arr = some a → a < h.arrs.length
  ptr : ∀ p ∈ h.elems s, h.ValidPtr p

/-- A blame a Go program can hold: all its references are allocated. -/
def Heap.Valid (h : Heap) (b : HBlame) : Prop := h.ValidSlice b.lines

/-- Every object of the old memory is unchanged in the new one. -/
structure Unchanged (h h' : Heap) : Prop where
  bufs : ∀ (i : Nat) x, h.bufs[i]? = some x → h'.bufs[i]? = some x
  lines : ∀ (i : Nat) x, h.lines[i]? = some x → h'.lines[i]? = some x
  arrs : ∀ (i : Nat) x, h.arrs[i]? = some x → h'.arrs[i]? = some x

end Ripsrc
