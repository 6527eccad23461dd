/-
Common vocabulary of the model: the word types, the fault outcomes and streams.
-/
namespace TFR

/-- The four word types the templates are instantiated with
(core/src/util/bitwise.h:12-28, core/src/types.h). -/
inductive WT where
  | u8 | u16 | u32 | u64
  deriving DecidableEq, Repr

/-- `bit_sizeof<T>()`, core/src/util/bitwise.h:12-15. -/
@[reducible] def WT.bits : WT → Nat
  | .u8 => 8 | .u16 => 16 | .u32 => 32 | .u64 => 64

/-- `shift_sizeof<T>()`, core/src/util/bitwise.h:17-28. -/
def WT.shiftBits : WT → Nat
  | .u8 => 3 | .u16 => 4 | .u32 => 5 | .u64 => 6

/-- `sizeof(T)`. -/
def WT.bytes : WT → Nat
  | .u8 => 1 | .u16 => 2 | .u32 => 4 | .u64 => 8

/-- Undefined behaviour (or an abort/throw) as explicit outcome.

Note: the macro `assertion` (core/src/util/assertion.h, assertion.cpp:8-12) only *prints* a message in
development builds and is a no-op otherwise; execution always continues.  So a failed assertion is
not a fault, and the model continues with whatever the code does next. -/
inductive Fault where
  | oobIndex        -- index outside a vector / string / array
  | shiftTooLarge   -- shift amount negative or not below the width of the promoted operand
  | divByZero       -- integer `/` or `%` by zero
  | signedOverflow  -- overflow of a signed `int` computation
  | emptyDeref      -- dereferencing end(), front()/back() of an empty container, empty optional
  | badCast         -- floating to integer conversion out of range
  | thrown          -- a C++ exception
  deriving DecidableEq, Repr

/-- Outcome of a computation that may fault. -/
abbrev R := Except Fault

/-- A stream (core/src/stream.h:9-26): a name and a callable with hidden mutable state.  Copying a
stream copies the captured state (`std::function` has value semantics), hence a value of this type
is one copy at one moment. -/
structure Stream (α : Type) : Type 1 where
  σ : Type
  name : String
  state : σ
  step : σ → α × σ

namespace Stream
variable {α : Type}

/-- `operator()`, core/src/stream.h:20-22: the returned value and the stream afterwards. -/
def next (s : Stream α) : α × Stream α :=
  let r := s.step s.state
  (r.1, { s with state := r.2 })

/-- The stream after `k` calls. -/
def drop (s : Stream α) : Nat → Stream α
  | 0 => s
  | k + 1 => drop s.next.2 k

/-- The value returned by call number `k` (counting from 0). -/
def nth (s : Stream α) (k : Nat) : α := ((s.drop k).next).1

/-- The first `n` values. -/
def take (s : Stream α) : Nat → List α
  | 0 => []
  | n + 1 => s.next.1 :: take s.next.2 n

end Stream
end TFR
