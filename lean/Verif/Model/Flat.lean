import Verif.Model.Basic
/- An ordinary file with a position: the behaviour of fichier_local over the system calls read(2), write(2), lseek(2),
ftruncate(2); also the specification of the layers which have to look like such a file. -/
namespace Dar

/-- Content and position of an ordinary file (src/libdar/fichier_local.cpp). -/
structure Flat where
  data : Bytes
  pos : Nat
  deriving DecidableEq, Repr

/-- The content once `b` has been written at offset `off`; what is missing before is filled with zeros (write(2) after
a seek beyond the end). -/
def patch (data : Bytes) (off : Nat) (b : Bytes) : Bytes :=
  if b = [] then data
  else (data ++ List.replicate (off - data.length) 0).take off ++ b ++ data.drop (off + b.length)

/-- fichier_local::fichier_global_inherited_read, src/libdar/fichier_local.cpp:282-323 -/
def Flat.read (f : Flat) (n : Nat) : Flat × Bytes :=
  ({ f with pos := f.pos + ((f.data.drop f.pos).take n).length }, (f.data.drop f.pos).take n)
/-- fichier_local::fichier_global_inherited_write, src/libdar/fichier_local.cpp:325-380 -/
def Flat.write (f : Flat) (b : Bytes) : Flat := ⟨patch f.data f.pos b, f.pos + b.length⟩
/-- fichier_local::skip, src/libdar/fichier_local.cpp:178-200: always succeeds -/
def Flat.skip (f : Flat) (p : Nat) : Flat := { f with pos := p }
/-- fichier_local::skip_to_eof, src/libdar/fichier_local.cpp:202-208 -/
def Flat.skipEof (f : Flat) : Flat := { f with pos := f.data.length }
/-- fichier_local::skip_relative, src/libdar/fichier_local.cpp:210-242 -/
def Flat.skipRel (f : Flat) (x : Int) : Flat × Bool :=
  if x < 0 then
    if (f.pos : Int) < -x then ({ f with pos := 0 }, false) else ({ f with pos := f.pos - x.natAbs }, true)
  else ({ f with pos := f.pos + x.natAbs }, true)
/-- fichier_local::inherited_truncate, src/libdar/fichier_local.cpp:257-279 -/
def Flat.truncate (f : Flat) (p : Nat) : Flat :=
  if p ≥ f.data.length then f else ⟨f.data.take p, if f.pos > p then p else f.pos⟩

end Dar
