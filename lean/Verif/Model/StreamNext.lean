import Verif.Model.StreamJson

/-! # Several documents in one stream

`Tree::load_source` with a stream (Tree.hpp:100-105, In.h: `Source(std::istream&)`) does not say how far it has read. What
comes after it reads the stream from where the buffer of the source before (In.cpp:32-85) has left it: the bytes in
the buffer are lost, for `In::set` (In.cpp:8-23) starts with an empty one. Nothing else differs from `loadS`.

A short read leaves the stream in a failed state; then it is at its end, and further reads give nothing – as further
reads of an empty rest give nothing here. -/

namespace Srl
open Stream

/-- As `PMsgPack.loadS` (Tree.hpp:100-105), and what is left of the stream -/
def PMsgPack.loadNext (cap : Nat) (old : SIn) (src : Bytes) : Res (Root × Bytes) :=
  opened cap old src fun s => do
    let (r, x) ← Doc.load (PMsgPack.readS cap) (2 * src.length + 1) ([], s)
    .ok (r, x.2.src)

/-- As `PSrl.loadS` (Tree.hpp:100-105), and what is left of the stream -/
def PSrl.loadNext (cap : Nat) (old : SIn) (src : Bytes) : Res (Root × Bytes) :=
  opened cap old src fun s => do
    let (r, x) ← Doc.load (PSrl.readS cap) (src.length + 1) (PSrl.St.init, s)
    .ok (r, x.2.src)

/-- As `PJson.loadS` (Tree.hpp:100-105), and what is left of the stream -/
def PJson.loadNext (cap : Nat) (strtod : Bytes → Option UInt64) (old : SIn) (src : Bytes) : Res (Root × Bytes) :=
  opened cap old src fun s => do
    let (r, x) ← Doc.load (PJson.readS cap strtod) (src.length + 2) (PJson.Rd.new, s)
    .ok (r, x.2.src)

end Srl
