/-
Common vocabulary of the model: bytes, errors, byte readers.
-/
namespace Dar

/-- A file content or buffer (`char *` / `unsigned char *` areas in the C++ code). -/
abbrev Bytes := List UInt8

/-- The C++ exceptions the model distinguishes (src/libdar/erreurs.hpp:168-399).
`ub` is undefined behaviour (for instance an out-of-bounds access): no C++ exception, kept
distinct so that no theorem can silently assume it away.
`diverge` is a loop that has not ended within the given number of steps. -/
inductive Err where
  | range      -- Erange
  | limitint   -- Elimitint (overflow of the bounded integer)
  | infinint   -- Einfinint (division by zero)
  | deci       -- Edeci (bad decimal digit)
  | bug        -- Ebug, thrown by the SRC_BUG macro
  | memory     -- Ememory
  | data       -- Edata
  | unsupported -- Efeature / Ecompilation
  | userAbort  -- Euser_abort
  | cancel     -- Ethread_cancel
  | libcall    -- Elibcall
  | script     -- Escript
  | hardware   -- Ehardware
  | ub
  | diverge
  deriving DecidableEq, Repr

/-- Result of a C++ call that may throw. -/
abbrev Res := Except Err

/-- Sequential reading from a file: takes the bytes that remain to be read, returns the value
and the bytes that still remain. -/
abbrev Reader (α : Type) := StateT Bytes (Except Err) α

/-- `f.read(&a, 1)` followed by the `lu <= 0 -> throw Erange` test used throughout the code
(e.g. src/libdar/real_infinint.cpp:67-70). -/
def readByte : Reader UInt8 := fun s =>
  match s with
  | [] => .error .range
  | b :: rest => .ok (b, rest)

/-- Throwing an exception while reading. -/
def Reader.fail {α : Type} (e : Err) : Reader α := fun _ => .error e

/-- Reading exactly `n` bytes, a short read being an Erange
(e.g. src/libdar/storage.cpp:64-75). -/
def readExact (n : Nat) : Reader Bytes := fun s =>
  if n ≤ s.length then .ok (s.take n, s.drop n) else .error .range

theorem readExact_append (l rest : Bytes) : readExact l.length (l ++ rest) = .ok (l, rest) := by
  simp [readExact]

theorem readExact_append' (n : Nat) (l rest : Bytes) (h : l.length = n) :
    readExact n (l ++ rest) = .ok (l, rest) := by
  subst h; exact readExact_append l rest

theorem readExact_short (n : Nat) (s : Bytes) (h : s.length < n) :
    readExact n s = .error .range := by
  simp [readExact]; omega

end Dar
