import Verif.FlModel

/-!
# Loops and bounded buffers

Shared by the models of the codecs. `Option` results: `none` is undefined behaviour (an access outside
a buffer, a conversion out of range, ...).
-/

namespace Dysco

/-- An array with its length; `get` outside the length is meaningless.
`std::vector`, `UVector`, and arrays; e.g. timeblockbuffer.h:77. -/
structure Buf (α : Type) where
  len : Nat
  get : Nat → α

namespace Buf
variable {α : Type}

/-- Read `b[i]`. e.g. timeblockbuffer.h:26, 38. -/
def rd (b : Buf α) (i : Nat) : Option α := if i < b.len then some (b.get i) else none

/-- `b[i] = x`. e.g. timeblockbuffer.h:38. -/
def wr (b : Buf α) (i : Nat) (x : α) : Option (Buf α) :=
  if i < b.len then some ⟨b.len, fun j => if j = i then x else b.get j⟩ else none

/-- `std::vector::resize(n)`: keeps the common prefix, new elements get the value `dflt`.
e.g. timeblockbuffer.h:32, 36. -/
def resize (b : Buf α) (n : Nat) (dflt : α) : Buf α :=
  ⟨n, fun j => if j < b.len then b.get j else dflt⟩

end Buf

/-- `for (i = 0; i != n; ++i) body(i)`. e.g. timeblockbuffer.h:37. -/
def forRange {σ : Type} (n : Nat) (body : Nat → σ → Option σ) (s : σ) : Option σ :=
  match n with
  | 0 => some s
  | n + 1 => (forRange n body s).bind (body n)

/-- Row of a `TimeBlockBuffer`, timeblockbuffer.h:21-24. -/
structure DataRow (α : Type) where
  antenna1 : Nat
  antenna2 : Nat
  vis : Buf α

/-- `std::vector<DataRow>`, timeblockbuffer.h:77. -/
abbrev Block (α : Type) := Buf (DataRow α)

end Dysco
