/-
What "stays inside its memory" means: specification for C58. The bytes of a page buffer are the
first `pageSize` bytes at the caller's pointer, the pages of the chip are those below
`c.pages`, its blocks those below `c.numBlocks`. Two states agree on the memory that exists if
they differ only in what lies beyond.
-/
import Verif.Model.Map
namespace Dhara

/-- Two buffers agree on their first `n` bytes. -/
def SameBytes (n : Nat) (b b' : Buf) : Prop := ∀ i, i < n → b i = b' i

/-- Two buffers agree on everything after their first `n` bytes. -/
def SameBeyond (n : Nat) (b b' : Buf) : Prop := ∀ i, n ≤ i → b i = b' i

/-- Two chips agree on the pages and blocks that exist. -/
structure SameCells (c : Cfg) (a b : Chip) : Prop where
  page : ∀ p, p < c.pages → a.page p = b.page p
  free : ∀ p, p < c.pages → a.free p = b.free p
  bad : ∀ k, k < c.numBlocks → a.bad k = b.bad k

/-- Two states agree on the memory that exists: every variable of the journal and the map, the
bytes of the page buffer, the cells of the chip, and the bookkeeping of the NAND model. -/
structure SameMem (c : Cfg) (s s' : S) : Prop where
  buf : SameBytes c.pageSize s.j.pageBuf s'.j.pageBuf
  cells : SameCells c s.n.chip s'.n.chip
  rest : s' = { s with j := { s.j with pageBuf := s'.j.pageBuf }, n := { s.n with chip := s'.n.chip } }

/-- The same call, up to what the data pointer points to beyond a page of data. -/
inductive SameCall (c : Cfg) : Op → Op → Prop
  | write (t : Nat) {d d' : Buf} (h : SameBytes c.pageSize d d') : SameCall c (.write t d) (.write t d')
  | same (op : Op) : SameCall c op op

/-- All that is asked of a state: head and tail are pages of the chip and the head is not the
last page of its checkpoint group. -/
structure PtrsOk (c : Cfg) (s : S) : Prop where
  head : s.j.head < c.pages
  tail : s.j.tail < c.pages
  user : s.j.head % c.ppc ≠ c.ppc - 1

end Dhara
