import Verif.Model.Storage
/- Model of src/libdar/memory_file.cpp. -/
namespace Dar

/-- class memory_file, src/libdar/memory_file.hpp:90-93 -/
structure MemFile where
  data : Cells
  size : Nat
  pos : Nat
  deriving DecidableEq, Repr

/-- memory_file::memory_file, src/libdar/memory_file.hpp:45 -/
def memNew : MemFile := ⟨[], 0, 0⟩

/-- memory_file::skip, src/libdar/memory_file.cpp:34-49 -/
def MemFile.skip (m : MemFile) (p : Nat) : MemFile × Bool :=
  if p ≥ m.size then ({ m with pos := m.size }, false) else ({ m with pos := p }, true)
/-- memory_file::skip_to_eof, src/libdar/memory_file.cpp:51-58 -/
def MemFile.skipEof (m : MemFile) : MemFile := { m with pos := m.size }
/-- memory_file::skip_relative, src/libdar/memory_file.cpp:60-93 -/
def MemFile.skipRel (m : MemFile) (x : Int) : MemFile × Bool :=
  if x < 0 then
    if m.pos < x.natAbs then ({ m with pos := 0 }, false) else ({ m with pos := m.pos - x.natAbs }, true)
  else if m.pos + x.natAbs > m.size then ({ m with pos := m.size }, false) else ({ m with pos := m.pos + x.natAbs }, true)

/-- memory_file::inherited_read, src/libdar/memory_file.cpp:157-170 -/
def MemFile.read (m : MemFile) : Nat → Res (MemFile × Bytes)
  | 0 => .ok (m, [])
  | n + 1 =>
    if m.pos < m.size then do
      let v ← stAt m.data m.pos
      let (m, b) ← MemFile.read { m with pos := m.pos + 1 } n
      .ok (m, v :: b)
    else .ok (m, [])

/-- the overwriting loop of memory_file::inherited_write, src/libdar/memory_file.cpp:179-184: the new state and what is left -/
def MemFile.overwrite (m : MemFile) : Bytes → Res (MemFile × Bytes)
  | [] => .ok (m, [])
  | v :: b =>
    if m.pos < m.size then do
      let d ← stSet m.data m.pos v
      MemFile.overwrite { m with data := d, pos := m.pos + 1 } b
    else .ok (m, v :: b)
/-- memory_file::inherited_write, src/libdar/memory_file.cpp:172-194; `sizes` are the blocks allocated for `n` bytes -/
def MemFile.write (ok : Nat → Bool) (sizes : Nat → List Nat) (m : MemFile) (b : Bytes) : Res MemFile :=
  if b = [] then .ok m
  else do
    let (m, r) ← m.overwrite b
    let d := stInsert ok (sizes r.length) m.data .stop r
    .ok ⟨d, if m.pos + r.length > m.size then m.pos + r.length else m.size, m.pos + r.length⟩

/-- memory_file::inherited_truncate, src/libdar/memory_file.cpp:196-204 -/
def MemFile.truncate (ok : Nat → Bool) (m : MemFile) (p : Nat) : Res MemFile :=
  if p ≥ m.size then .error .bug
  else .ok ⟨stTruncate ok m.data p, p, if m.pos > p then p else m.pos⟩

/-- the copy loop of memory_file::dump_to, src/libdar/memory_file.cpp:101-110: the iterator has to point to data -/
def memCopy : Cells → Res Bytes
  | [] => .ok []
  | c :: cs => if c = [] then .error .range else do
    let r ← memCopy cs
    .ok (c ++ r)
/-- memory_file::dump_to, src/libdar/memory_file.cpp:95-113, into a buffer which is large enough -/
def MemFile.dumpTo (m : MemFile) : Res Bytes := memCopy m.data

end Dar
